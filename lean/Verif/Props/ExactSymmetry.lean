import Verif.Props.Rounding
import Verif.Spec.Exact
import Verif.Props.Ewa
import Verif.Lemmas.Unbounded
import Verif.Props.RoundingDouble

/-!
# C120: symmetries that hold to the last bit in floating point

`Fl R` are the numbers of a floating-point format with rounding `R` (any; IEEE double is `Rounding.double`).
-/

set_option linter.all false

namespace Precise

open Spec Obj

variable {ι κ : Type} [Fintype ι] [Fintype κ] {R : Rounding}

theorem rowsSinceFit_mapAny {K : Type} (f : (ι → K) → κ → K) (calls : List (Call ι K)) (acc : List (ι → K)) :
    rowsSinceFit (calls.map (mapCall f)) (acc.map f) = (rowsSinceFit calls acc).map f := by
  induction calls generalizing acc with
  | nil => rfl
  | cons c cs ih =>
    cases c with
    | partialFit X =>
      cases X with
      | row x => simp only [List.map_cons, mapCall, rowsSinceFit, rowsOf]; rw [← ih]; simp
      | batch xs => simp only [List.map_cons, mapCall, rowsSinceFit, rowsOf]; rw [← ih]; simp
      | other n => simp only [List.map_cons, mapCall, rowsSinceFit, rowsOf]; rw [← ih]; simp
    | fit X =>
      cases X with
      | row x => simp only [List.map_cons, mapCall, rowsSinceFit]; rw [← ih]; rfl
      | batch xs => simp only [List.map_cons, mapCall, rowsSinceFit]; rw [← ih]
      | other n => simp only [List.map_cons, mapCall, rowsSinceFit]; rw [← ih]; rfl

theorem used_mapAny {K : Type} [Sub K] (g : (ι → K) → κ → K) (hg : ∀ x y, g (x - y) = g x - g y) (d : Bool) (calls : List (Call ι K)) :
    used d (calls.map (mapCall g)) = (used d calls).map g := by
  have h := rowsSinceFit_mapAny g calls []
  simp only [List.map_nil] at h
  unfold used
  rw [h]
  cases d with
  | false => rfl
  | true =>
    show diffs _ = (diffs _).map g
    generalize rowsSinceFit calls [] = xs
    induction xs with
    | nil => rfl
    | cons x t ih =>
      cases t with
      | nil => rfl
      | cons y t =>
        simp only [List.map_cons, diffs] at ih ⊢
        rw [ih, hg]

theorem unfitted_any {K : Type} [Sub K] [Add K] [Div K] [OfNat K 2] {C : Cls ι K} (p : C.Param) (calls : List (Call ι K))
    (h : used (C.diff p) calls = []) :
    ((new C p).run calls).nSamples = 0 ∧ ((new C p).run calls).location = .error .notFitted ∧ ((new C p).run calls).covariance = .error .notFitted := by
  have hs := run_new_state p calls
  change _ = match used (C.diff p) calls with | [] => none | ys => _ at hs
  rw [h] at hs
  simp only [] at hs
  simp [Obj.nSamples, Obj.location, Obj.covariance, Obj.fittedState, hs, Except.map]

/-- Simulation of two float runs. -/
theorem exact_of_sim {C : Cls ι (Fl R)} {C' : Cls κ (Fl R)} (hC : Lawful C) (hC' : Lawful C') {p : C.Param} {p' : C'.Param}
    (hd : C'.diff p' = C.diff p) (f : κ → ι) {w : κ → ℝ} (hw : ∀ k, Free R (w k))
    (S : C.State → C'.State → Prop) (hi : S (C.initState p) (C'.initState p'))
    (hs : ∀ s s' x, S s s' → S (C.updateState p s x) (C'.updateState p' s' (pick f hw x)))
    (hm : ∀ s s', S s s' → C'.toMean p' s' = pick f hw (C.toMean p s))
    (hc : ∀ s s', S s s' → C'.toCov p' s' = pickMat f hw (C.toCov p s)) (calls : List (Call ι (Fl R))) :
    ((new C' p').run (calls.map (mapCall (pick f hw)))).nSamples = ((new C p).run calls).nSamples ∧
    ((new C' p').run (calls.map (mapCall (pick f hw)))).location = ((new C p).run calls).location.map (pick f hw) ∧
    ((new C' p').run (calls.map (mapCall (pick f hw)))).covariance = ((new C p).run calls).covariance.map (pickMat f hw) := by
  have hsub : ∀ x y : ι → Fl R, pick f hw (x - y) = pick f hw x - pick f hw y := by
    intro x y
    funext k
    apply Subtype.ext
    show w k * R.rnd ((x (f k)).val - (y (f k)).val) = R.rnd (w k * (x (f k)).val - w k * (y (f k)).val)
    rw [← mul_sub, hw k]
  have hu : used (C'.diff p') (calls.map (mapCall (pick f hw))) = (used (C.diff p) calls).map (pick f hw) := by
    rw [hd]; exact used_mapAny _ hsub _ calls
  have hS : ∀ xs : List (ι → Fl R), S (xs.foldl (C.updateState p) (C.initState p))
      ((xs.map (pick f hw)).foldl (C'.updateState p') (C'.initState p')) := by
    intro xs
    induction xs using List.reverseRecOn with
    | nil => exact hi
    | append_singleton xs x ih =>
      simp only [List.map_append, List.map_cons, List.map_nil, List.foldl_append, List.foldl_cons, List.foldl_nil]
      exact hs _ _ _ ih
  have hsym : ∀ a : Matrix ι ι (Fl R), toSymmetric (pickMat f hw a) = pickMat f hw (toSymmetric a) := by
    intro a
    funext k l
    apply Subtype.ext
    show R.rnd (R.rnd (w k * w l * (a (f k) (f l)).val + w l * w k * (a (f l) (f k)).val) / 2)
      = w k * w l * R.rnd (R.rnd ((a (f k) (f l)).val + (a (f l) (f k)).val) / 2)
    rw [mul_comm (w l) (w k), ← mul_add, (hw k).mul (hw l), mul_div_assoc, (hw k).mul (hw l)]
  by_cases h : used (C.diff p) calls = []
  · have h' : used (C'.diff p') (calls.map (mapCall (pick f hw))) = [] := by rw [hu, h]; rfl
    have a := unfitted_any p calls h
    have b := unfitted_any p' _ h'
    exact ⟨by rw [a.1, b.1], by rw [a.2.1, b.2.1]; rfl, by rw [a.2.2, b.2.2]; rfl⟩
  · have h' : used (C'.diff p') (calls.map (mapCall (pick f hw))) ≠ [] := by rw [hu]; simpa using h
    refine ⟨?_, ?_, ?_⟩
    · have e1 := C04_n_samples hC p calls
      have e2 := C04_n_samples hC' p' (calls.map (mapCall (pick f hw)))
      have hl : (rowsSinceFit (calls.map (mapCall (pick f hw))) []).length = (rowsSinceFit calls []).length := by
        have := rowsSinceFit_mapAny (pick f hw) calls []
        simp only [List.map_nil] at this
        rw [this, List.length_map]
      rw [e1, e2, hd, hl]
    · rw [run_location hC p calls h, run_location hC' p' _ h', hu, hm _ _ (hS _)]; rfl
    · rw [run_covariance hC p calls h, run_covariance hC' p' _ h', hu, hc _ _ (hS _), hsym]; rfl

/-- The states of the two runs. -/
structure SameBits (f : κ → ι) (w : κ → ℝ) (s : EmpState ι (Fl R)) (t : EmpState κ (Fl R)) : Prop where
  n : t.nSamples = s.nSamples
  mean : ∀ k, (t.mean k).val = w k * (s.mean (f k)).val
  cov : ∀ k l, (t.cov k l).val = w k * w l * (s.cov (f k) (f l)).val

theorem sameBits_emp {f : κ → ι} {w : κ → ℝ} (hw : ∀ k, Free R (w k)) {s : EmpState ι (Fl R)} {t : EmpState κ (Fl R)}
    (h : SameBits f w s t) (x : ι → Fl R) : SameBits f w (empUpdate s x) (empUpdate t (pick f hw x)) := by
  obtain ⟨hn, hm, hc⟩ := h
  have hdel : ∀ k, (pick f hw x k - t.mean k).val = w k * (x (f k) - s.mean (f k)).val := by
    intro k
    show R.rnd (w k * (x (f k)).val - (t.mean k).val) = w k * R.rnd ((x (f k)).val - (s.mean (f k)).val)
    rw [hm, ← mul_sub, hw k]
  have hmean : ∀ k, ((empUpdate t (pick f hw x)).mean k).val = w k * ((empUpdate s x).mean (f k)).val := by
    intro k
    show R.rnd ((t.mean k).val + R.rnd ((pick f hw x k - t.mean k).val / (((t.nSamples + 1 : ℕ) : Fl R)).val))
      = w k * R.rnd ((s.mean (f k)).val + R.rnd ((x (f k) - s.mean (f k)).val / (((s.nSamples + 1 : ℕ) : Fl R)).val))
    rw [hm, hdel, hn, mul_div_assoc, hw k, ← mul_add, hw k]
  refine ⟨by simp [empUpdate, hn], hmean, fun k l => ?_⟩
  have hwd : (((pick f hw x l - (empUpdate t (pick f hw x)).mean l) / (((t.nSamples + 1 : ℕ) : Fl R)) : Fl R)).val
      = w l * (((x (f l) - (empUpdate s x).mean (f l)) / (((s.nSamples + 1 : ℕ) : Fl R)) : Fl R)).val := by
    show R.rnd (R.rnd (w l * (x (f l)).val - ((empUpdate t (pick f hw x)).mean l).val) / (((t.nSamples + 1 : ℕ) : Fl R)).val)
      = w l * R.rnd (R.rnd ((x (f l)).val - ((empUpdate s x).mean (f l)).val) / (((s.nSamples + 1 : ℕ) : Fl R)).val)
    rw [hmean, ← mul_sub, hw l, hn, mul_div_assoc, hw l]
  show R.rnd (R.rnd (R.rnd ((t.cov k l).val * (((t.nSamples + 1 - 1 : ℕ) : Fl R)).val) / (((t.nSamples + 1 : ℕ) : Fl R)).val)
      + R.rnd ((pick f hw x k - t.mean k).val * (((pick f hw x l - (empUpdate t (pick f hw x)).mean l) / (((t.nSamples + 1 : ℕ) : Fl R)) : Fl R)).val))
    = w k * w l * R.rnd (R.rnd (R.rnd ((s.cov (f k) (f l)).val * (((s.nSamples + 1 - 1 : ℕ) : Fl R)).val) / (((s.nSamples + 1 : ℕ) : Fl R)).val)
      + R.rnd ((x (f k) - s.mean (f k)).val * (((x (f l) - (empUpdate s x).mean (f l)) / (((s.nSamples + 1 : ℕ) : Fl R)) : Fl R)).val))
  have hkl := (hw k).mul (hw l)
  rw [hdel, hwd, hc, hn, mul_assoc (w k * w l), hkl, mul_div_assoc, hkl, mul_mul_mul_comm, hkl, ← mul_add, hkl]

theorem sameBits_blend {f : κ → ι} {w : κ → ℝ} (hw : ∀ k, Free R (w k)) {s : EmpState ι (Fl R)} {t : EmpState κ (Fl R)}
    (h : SameBits f w s t) (r : Fl R) (x : ι → Fl R) : SameBits f w (ewaBlend r s x) (ewaBlend r t (pick f hw x)) := by
  obtain ⟨hn, hm, hc⟩ := h
  have hdel : ∀ k, (pick f hw x k - t.mean k).val = w k * (x (f k) - s.mean (f k)).val := by
    intro k
    show R.rnd (w k * (x (f k)).val - (t.mean k).val) = w k * R.rnd ((x (f k)).val - (s.mean (f k)).val)
    rw [hm, ← mul_sub, hw k]
  refine ⟨by simp [ewaBlend, hn], fun k => ?_, fun k l => ?_⟩
  · show R.rnd (R.rnd ((1 - r : Fl R).val * (t.mean k).val) + R.rnd (r.val * (w k * (x (f k)).val)))
      = w k * R.rnd (R.rnd ((1 - r : Fl R).val * (s.mean (f k)).val) + R.rnd (r.val * (x (f k)).val))
    rw [hm, mul_left_comm, hw k, mul_left_comm r.val, hw k, ← mul_add, hw k]
  · show R.rnd (R.rnd ((1 - r : Fl R).val * (t.cov k l).val)
        + R.rnd (r.val * R.rnd ((pick f hw x k - t.mean k).val * (pick f hw x l - t.mean l).val)))
      = w k * w l * R.rnd (R.rnd ((1 - r : Fl R).val * (s.cov (f k) (f l)).val)
        + R.rnd (r.val * R.rnd ((x (f k) - s.mean (f k)).val * (x (f l) - s.mean (f l)).val)))
    have hkl := (hw k).mul (hw l)
    rw [hdel, hdel, hc, mul_mul_mul_comm, hkl, mul_left_comm, hkl, mul_left_comm r.val, hkl, ← mul_add, hkl]

theorem sameBits_init (f : κ → ι) (w : κ → ℝ) : SameBits f w (empInit : EmpState ι (Fl R)) (empInit : EmpState κ (Fl R)) := by
  refine ⟨rfl, fun k => ?_, fun k l => ?_⟩
  · show (0:ℝ) = w k * 0; simp
  · show (0:ℝ) = w k * w l * 0; simp

theorem SameBits.meanEq {f : κ → ι} {w : κ → ℝ} (hw : ∀ k, Free R (w k)) {s : EmpState ι (Fl R)} {t : EmpState κ (Fl R)}
    (h : SameBits f w s t) : t.mean = pick f hw s.mean := by
  funext k; exact Subtype.ext (h.mean k)

theorem SameBits.covEq {f : κ → ι} {w : κ → ℝ} (hw : ∀ k, Free R (w k)) {s : EmpState ι (Fl R)} {t : EmpState κ (Fl R)}
    (h : SameBits f w s t) : t.cov = pickMat f hw s.cov := by
  funext k l; exact Subtype.ext (h.cov k l)

/-- C120: EmpiricalCovariance in floating point. Choosing, repeating, re-ordering columns and multiplying them by factors
that commute with rounding does exactly the same to `location_` and `covariance_`: not one bit differs. -/
theorem C120_empirical (f : κ → ι) {w : κ → ℝ} (hw : ∀ k, Free R (w k)) (d : Bool) (calls : List (Call ι (Fl R))) :
    let o := (new (empiricalCls ι (Fl R)) d).run calls
    let o' := (new (empiricalCls κ (Fl R)) d).run (calls.map (mapCall (pick f hw)))
    o'.nSamples = o.nSamples ∧ o'.location = o.location.map (pick f hw) ∧ o'.covariance = o.covariance.map (pickMat f hw) := by
  exact exact_of_sim (C := empiricalCls ι (Fl R)) (C' := empiricalCls κ (Fl R)) (empirical_lawful ι (Fl R)) (empirical_lawful κ (Fl R)) rfl f hw
    (SameBits f w) (sameBits_init f w) (fun s s' x h => sameBits_emp hw h x) (fun s s' h => h.meanEq hw) (fun s s' h => h.covEq hw) calls

/-- C120: EwaCovariance. -/
theorem C120_ewa (f : κ → ι) {w : κ → ℝ} (hw : ∀ k, Free R (w k)) (p : RParam (Fl R)) (calls : List (Call ι (Fl R))) :
    let o := (new (ewaFlCls R ι) p).run calls
    let o' := (new (ewaFlCls R κ) p).run (calls.map (mapCall (pick f hw)))
    o'.nSamples = o.nSamples ∧ o'.location = o.location.map (pick f hw) ∧ o'.covariance = o.covariance.map (pickMat f hw) := by
  refine exact_of_sim (C := ewaFlCls R ι) (C' := ewaFlCls R κ) (ewaFl_lawful R ι) (ewaFl_lawful R κ) rfl f hw
    (fun s t => SameBits f w s.toEmpState t.toEmpState ∧ t.r = s.r ∧ t.nBurn = s.nBurn) ⟨sameBits_init f w, rfl, rfl⟩ ?_
    (fun s s' h => h.1.meanEq hw) (fun s s' h => h.1.covEq hw) calls
  rintro (s : EwaState ι (Fl R)) (t : EwaState κ (Fl R)) x ⟨h, hr, hb⟩
  show SameBits f w (ewaUpdate s x).toEmpState (ewaUpdate t (pick f hw x)).toEmpState ∧ _
  unfold ewaUpdate
  by_cases hlt : s.nSamples < s.nBurn
  · have hlt' : t.nSamples < t.nBurn := by rw [h.n, hb]; exact hlt
    show SameBits f w (ewaUpdate s x).toEmpState (ewaUpdate t (pick f hw x)).toEmpState ∧ (ewaUpdate t (pick f hw x)).r = (ewaUpdate s x).r ∧ _
    unfold ewaUpdate
    rw [if_pos hlt, if_pos hlt']
    exact ⟨sameBits_emp hw h x, hr, by show (ewaUpdate t (pick f hw x)).nBurn = (ewaUpdate s x).nBurn; unfold ewaUpdate; rw [if_pos hlt, if_pos hlt']; exact hb⟩
  · have hlt' : ¬ t.nSamples < t.nBurn := by rw [h.n, hb]; exact hlt
    show SameBits f w (ewaUpdate s x).toEmpState (ewaUpdate t (pick f hw x)).toEmpState ∧ (ewaUpdate t (pick f hw x)).r = (ewaUpdate s x).r ∧ _
    unfold ewaUpdate
    rw [if_neg hlt, if_neg hlt']
    refine ⟨?_, hr, by show (ewaUpdate t (pick f hw x)).nBurn = (ewaUpdate s x).nBurn; unfold ewaUpdate; rw [if_neg hlt, if_neg hlt']; exact hb⟩
    show SameBits f w (ewaBlend s.r s.toEmpState x) (ewaBlend t.r t.toEmpState (pick f hw x))
    rw [hr]
    exact sameBits_blend hw h s.r x

/-- C120: DiagonalCovariance; here a column must not be repeated (two copies of a column have covariance zero). -/
theorem C120_diagonal [DecidableEq ι] [DecidableEq κ] (f : κ → ι) (hf : Function.Injective f) {w : κ → ℝ} (hw : ∀ k, Free R (w k))
    (p : RParam (Fl R)) (calls : List (Call ι (Fl R))) :
    let o := (new (diagonalFlCls R ι) p).run calls
    let o' := (new (diagonalFlCls R κ) p).run (calls.map (mapCall (pick f hw)))
    o'.nSamples = o.nSamples ∧ o'.location = o.location.map (pick f hw) ∧ o'.covariance = o.covariance.map (pickMat f hw) := by
  refine exact_of_sim (C := diagonalFlCls R ι) (C' := diagonalFlCls R κ) (diagonalFl_lawful R ι) (diagonalFl_lawful R κ) rfl f hw
    (fun (s : DiagState ι (Fl R)) (t : DiagState κ (Fl R)) => t.nSamples = s.nSamples ∧ t.r = s.r ∧ t.nBurn = s.nBurn ∧
      (∀ k, (t.mean k).val = w k * (s.mean (f k)).val) ∧ ∀ k, (t.var k).val = w k * w k * (s.var (f k)).val)
    ⟨rfl, rfl, rfl, fun k => by show (0:ℝ) = w k * 0; simp, fun k => by show (0:ℝ) = w k * w k * 0; simp⟩ ?_ ?_ ?_ calls
  · rintro (s : DiagState ι (Fl R)) (t : DiagState κ (Fl R)) x ⟨hn, hr, hb, hm, hv⟩
    have hdel : ∀ k, (pick f hw x k - t.mean k).val = w k * (x (f k) - s.mean (f k)).val := by
      intro k
      show R.rnd (w k * (x (f k)).val - (t.mean k).val) = w k * R.rnd ((x (f k)).val - (s.mean (f k)).val)
      rw [hm, ← mul_sub, hw k]
    have hsq : ∀ k, ((pick f hw x k - t.mean k) * (pick f hw x k - t.mean k)).val
        = w k * w k * ((x (f k) - s.mean (f k)) * (x (f k) - s.mean (f k))).val := by
      intro k
      show R.rnd ((pick f hw x k - t.mean k).val * (pick f hw x k - t.mean k).val)
        = w k * w k * R.rnd ((x (f k) - s.mean (f k)).val * (x (f k) - s.mean (f k)).val)
      rw [hdel, mul_mul_mul_comm, (hw k).mul (hw k)]
    show (diagUpdate t (pick f hw x)).nSamples = (diagUpdate s x).nSamples ∧ (diagUpdate t (pick f hw x)).r = (diagUpdate s x).r ∧
      (diagUpdate t (pick f hw x)).nBurn = (diagUpdate s x).nBurn ∧
      (∀ k, ((diagUpdate t (pick f hw x)).mean k).val = w k * ((diagUpdate s x).mean (f k)).val) ∧
      ∀ k, ((diagUpdate t (pick f hw x)).var k).val = w k * w k * ((diagUpdate s x).var (f k)).val
    unfold diagUpdate
    simp only []
    by_cases h : s.nSamples + 1 ≤ s.nBurn
    · have h' : t.nSamples + 1 ≤ t.nBurn := by rw [hn, hb]; exact h
      rw [if_pos h, if_pos h']
      refine ⟨by rw [hn], hr, hb, fun k => ?_, fun k => ?_⟩
      · show R.rnd ((t.mean k).val + R.rnd ((pick f hw x k - t.mean k).val / (((t.nSamples + 1 : ℕ) : Fl R)).val))
          = w k * R.rnd ((s.mean (f k)).val + R.rnd ((x (f k) - s.mean (f k)).val / (((s.nSamples + 1 : ℕ) : Fl R)).val))
        rw [hm, hdel, hn, mul_div_assoc, hw k, ← mul_add, hw k]
      · have hkk := (hw k).mul (hw k)
        show R.rnd ((t.var k).val + R.rnd (R.rnd (((pick f hw x k - t.mean k) * (pick f hw x k - t.mean k)).val - (t.var k).val) / (((t.nSamples + 1 : ℕ) : Fl R)).val))
          = w k * w k * R.rnd ((s.var (f k)).val + R.rnd (R.rnd (((x (f k) - s.mean (f k)) * (x (f k) - s.mean (f k))).val - (s.var (f k)).val) / (((s.nSamples + 1 : ℕ) : Fl R)).val))
        rw [hsq, hv, ← mul_sub, hkk, hn, mul_div_assoc, hkk, ← mul_add, hkk]
    · have h' : ¬ t.nSamples + 1 ≤ t.nBurn := by rw [hn, hb]; exact h
      rw [if_neg h, if_neg h']
      refine ⟨by rw [hn], hr, hb, fun k => ?_, fun k => ?_⟩
      · show R.rnd (R.rnd ((1 - t.r : Fl R).val * (t.mean k).val) + R.rnd (t.r.val * (w k * (x (f k)).val)))
          = w k * R.rnd (R.rnd ((1 - s.r : Fl R).val * (s.mean (f k)).val) + R.rnd (s.r.val * (x (f k)).val))
        rw [hr, hm, mul_left_comm, hw k, mul_left_comm s.r.val, hw k, ← mul_add, hw k]
      · have hkk := (hw k).mul (hw k)
        show R.rnd (R.rnd ((1 - t.r : Fl R).val * (t.var k).val) + R.rnd (t.r.val * ((pick f hw x k - t.mean k) * (pick f hw x k - t.mean k)).val))
          = w k * w k * R.rnd (R.rnd ((1 - s.r : Fl R).val * (s.var (f k)).val) + R.rnd (s.r.val * ((x (f k) - s.mean (f k)) * (x (f k) - s.mean (f k))).val))
        rw [hr, hv, hsq, mul_left_comm, hkk, mul_left_comm s.r.val, hkk, ← mul_add, hkk]
  · rintro (s : DiagState ι (Fl R)) (t : DiagState κ (Fl R)) ⟨hn, hr, hb, hm, hv⟩
    funext k; exact Subtype.ext (hm k)
  · rintro (s : DiagState ι (Fl R)) (t : DiagState κ (Fl R)) ⟨hn, hr, hb, hm, hv⟩
    funext k l
    apply Subtype.ext
    show (Matrix.diagonal t.var k l).val = w k * w l * (Matrix.diagonal s.var (f k) (f l)).val
    by_cases h : k = l
    · subst h; rw [Matrix.diagonal_apply_eq, Matrix.diagonal_apply_eq]; exact hv k
    · rw [Matrix.diagonal_apply_ne _ h, Matrix.diagonal_apply_ne _ (fun e => h (hf e))]
      show (0:ℝ) = w k * w l * 0; simp

/-! ## What this says -/

/-- C120: estimating a selection of the columns alone gives exactly the corresponding part of the full estimate (here
EwaCovariance; `f` chooses the columns). -/
theorem C120_subset (f : κ → ι) (p : RParam (Fl R)) (calls : List (Call ι (Fl R))) :
    let o := (new (ewaFlCls R ι) p).run calls
    let o' := (new (ewaFlCls R κ) p).run (calls.map (mapCall fun x k => x (f k)))
    o'.location = o.location.map (fun m k => m (f k)) ∧ o'.covariance = o.covariance.map (fun c => c.submatrix f f) := by
  have hp : (pick f (fun _ => free_one R) : (ι → Fl R) → κ → Fl R) = fun x k => x (f k) := by
    funext x k; exact Subtype.ext (by show 1 * _ = _; rw [one_mul]; rfl)
  have hq : (pickMat f (fun _ => free_one R) : Matrix ι ι (Fl R) → Matrix κ κ (Fl R)) = fun c => c.submatrix f f := by
    funext c k l; exact Subtype.ext (by show 1 * 1 * _ = _; rw [one_mul, one_mul]; rfl)
  have := C120_ewa f (fun _ => free_one R) p calls
  rw [hp, hq] at this
  exact this.2

/-- C120: reversing the sign of some columns reverses exactly the signs of their means and covariances, and of their
correlations. -/
theorem C120_signs (w : ι → ℝ) (h : ∀ i, w i = 1 ∨ w i = -1) (hw : ∀ i, Free R (w i)) (p : RParam (Fl R)) (calls : List (Call ι (Fl R))) :
    let o := (new (ewaFlCls R ι) p).run calls
    let o' := (new (ewaFlCls R ι) p).run (calls.map (mapCall (pick id hw)))
    o'.location = o.location.map (pick id hw) ∧ o'.covariance = o.covariance.map (pickMat id hw) ∧
      o'.correlationFl = o.correlationFl.map (pickMat id hw) := by
  intro o o'
  have := C120_ewa id hw p calls
  refine ⟨this.2.1, this.2.2, ?_⟩
  have hc : o'.covariance = o.covariance.map (pickMat id hw) := this.2.2
  unfold Obj.correlationFl
  rw [hc]
  rcases o.covariance with e | c
  · rfl
  · show Except.ok (covToCorrFl (pickMat id hw c)) = Except.ok (pickMat id hw (covToCorrFl c))
    congr 1
    funext i j
    apply Subtype.ext
    have hsq : ∀ i, w i * w i = 1 := by intro i; rcases h i with e | e <;> rw [e] <;> norm_num
    show R.rnd ((w i * w j * (c i j).val) / R.rnd (R.rnd (Real.sqrt (R.rnd ((w j * w j * (c j j).val) * (w i * w i * (c i i).val)))) + R.rnd (1 / 10 ^ 12)))
      = w i * w j * R.rnd ((c i j).val / R.rnd (R.rnd (Real.sqrt (R.rnd ((c j j).val * (c i i).val))) + R.rnd (1 / 10 ^ 12)))
    rw [hsq, hsq, one_mul, one_mul, mul_div_assoc, (hw i).mul (hw j)]

/-- The factors `±1` of `C120_signs` are free in every format. -/
theorem free_sign (R : Rounding) {w : ℝ} (h : w = 1 ∨ w = -1) : Free R w := by
  rcases h with rfl | rfl
  · exact free_one R
  · exact free_neg (free_one R)

/-- C120: units that are powers of two are free. With `p`-bit binary arithmetic and no over- or underflow, giving column
`i` in units `2^(-k i)` multiplies its mean by `2^(k i)` and its covariance with column `j` by `2^(k i + k j)`, exactly. -/
theorem C120_units (bits : ℕ) (hb : 8 ≤ bits) (k : ι → ℤ) (p : RParam (Fl (Rounding.unbounded bits hb)))
    (calls : List (Call ι (Fl (Rounding.unbounded bits hb)))) :
    let hw := fun i => free_two_zpow bits hb (k i)
    let o := (new (ewaFlCls (Rounding.unbounded bits hb) ι) p).run calls
    let o' := (new (ewaFlCls (Rounding.unbounded bits hb) ι) p).run (calls.map (mapCall (pick id hw)))
    (∀ m, o.location = .ok m → ∃ m', o'.location = .ok m' ∧ ∀ i, (m' i).val = (2:ℝ) ^ k i * (m i).val) ∧
    (∀ c, o.covariance = .ok c → ∃ c', o'.covariance = .ok c' ∧ ∀ i j, (c' i j).val = (2:ℝ) ^ (k i + k j) * (c i j).val) := by
  intro hw o o'
  have := C120_ewa id hw p calls
  refine ⟨fun m hm => ?_, fun c hc => ?_⟩
  · have e : o'.location = o.location.map (pick id hw) := this.2.1
    rw [hm] at e
    exact ⟨_, e, fun i => rfl⟩
  · have e : o'.covariance = o.covariance.map (pickMat id hw) := this.2.2
    rw [hc] at e
    refine ⟨_, e, fun i j => ?_⟩
    show (2:ℝ) ^ k i * (2:ℝ) ^ k j * (c i j).val = _
    rw [zpow_add₀ (by norm_num)]

/-! ## In IEEE double a power of two is not always free -/

theorem dbl_pow (k : ℤ) (h : -1074 ≤ k) : Rounding.double.rnd ((2 : ℝ) ^ k) = (2 : ℝ) ^ k := by
  have := ieeeRnd_rep (p := 53) (emin := -1074) (k := 1) (e := k) (by norm_num) h (by norm_num)
  rw [Int.cast_one, one_mul] at this
  exact this

theorem dbl_zero : Rounding.double.rnd 0 = 0 := by
  have := Rounding.double.int_exact 0 (Nat.zero_le _); simpa using this

/-- The double `2^k`. -/
noncomputable def pow2 (k : ℤ) (h : -1074 ≤ k) : Fl Rounding.double := ⟨(2 : ℝ) ^ k, dbl_pow k h⟩

theorem two_rows (k : ℤ) (h : -1072 ≤ k) :
    ((new (empiricalCls (Fin 1) (Fl Rounding.double)) false).run
      [.fit (.batch [fun _ => 0, fun _ => pow2 k (by omega)])]).covariance.map (fun c => (c 0 0).val)
      = .ok (Rounding.double.rnd (Rounding.double.rnd (2 * Rounding.double.rnd ((2 : ℝ) ^ (2 * k - 2))) / 2)) := by
  rw [run_covariance (empirical_lawful (Fin 1) (Fl Rounding.double)) false _ (by simp [empiricalCls, used, effective, rowsSinceFit])]
  have hz : ∀ y : ℝ, Rounding.double.rnd (y - 0) = Rounding.double.rnd y := fun y => by rw [sub_zero]
  have e1 : ((((0 + 1 : ℕ) : Fl Rounding.double)).val) = 1 := by
    show Rounding.double.rnd (((0 + 1 : ℕ) : ℝ)) = 1
    have := Rounding.double.int_exact 1 (by show 1 ≤ 2 ^ 53; norm_num); simpa using this
  have e2 : ((((1 + 1 : ℕ) : Fl Rounding.double)).val) = 2 := by
    show Rounding.double.rnd (((1 + 1 : ℕ) : ℝ)) = 2
    have := Rounding.double.int_exact 2 (by show 2 ≤ 2 ^ 53; norm_num); norm_num at this ⊢; exact this
  set s1 : EmpState (Fin 1) (Fl Rounding.double) := empUpdate empInit (fun _ => 0) with hs1
  have m1 : (s1.mean 0).val = 0 := by
    show Rounding.double.rnd (0 + Rounding.double.rnd (Rounding.double.rnd (0 - 0) / (((0 + 1 : ℕ) : Fl Rounding.double)).val)) = 0
    rw [e1]; simp [dbl_zero]
  have n1 : s1.nSamples = 1 := rfl
  have c1 : (s1.cov 0 0).val = 0 := by
    show Rounding.double.rnd (Rounding.double.rnd (Rounding.double.rnd (0 * (((0 + 1 - 1 : ℕ) : Fl Rounding.double)).val) / (((0 + 1 : ℕ) : Fl Rounding.double)).val)
      + Rounding.double.rnd (Rounding.double.rnd (0 - 0) * Rounding.double.rnd (Rounding.double.rnd (0 - (s1.mean 0).val) / (((0 + 1 : ℕ) : Fl Rounding.double)).val))) = 0
    rw [e1, m1]; simp [dbl_zero]
  set x : Fin 1 → Fl Rounding.double := fun _ => pow2 k (by omega) with hx
  have hd : (x 0 - s1.mean 0).val = (2 : ℝ) ^ k := by
    show Rounding.double.rnd ((2 : ℝ) ^ k - (s1.mean 0).val) = _
    rw [m1, hz, dbl_pow k (by omega)]
  have half : ∀ j : ℤ, (2 : ℝ) ^ j / 2 = (2 : ℝ) ^ (j - 1) := fun j => by rw [zpow_sub_one₀ (by norm_num)]; ring
  have m2 : ((empUpdate s1 x).mean 0).val = (2 : ℝ) ^ (k - 1) := by
    show Rounding.double.rnd ((s1.mean 0).val + Rounding.double.rnd ((x 0 - s1.mean 0).val / (((1 + 1 : ℕ) : Fl Rounding.double)).val)) = _
    rw [m1, hd, e2, zero_add, half, dbl_pow _ (by omega), dbl_pow _ (by omega)]
  have c2 : ((empUpdate s1 x).cov 0 0).val = Rounding.double.rnd ((2 : ℝ) ^ (2 * k - 2)) := by
    show Rounding.double.rnd (Rounding.double.rnd (Rounding.double.rnd ((s1.cov 0 0).val * (((1 + 1 - 1 : ℕ) : Fl Rounding.double)).val) / (((1 + 1 : ℕ) : Fl Rounding.double)).val)
      + Rounding.double.rnd ((x 0 - s1.mean 0).val * Rounding.double.rnd (Rounding.double.rnd ((2 : ℝ) ^ k - ((empUpdate s1 x).mean 0).val) / (((1 + 1 : ℕ) : Fl Rounding.double)).val))) = _
    have hsub : (2 : ℝ) ^ k - (2 : ℝ) ^ (k - 1) = (2 : ℝ) ^ (k - 1) := by rw [zpow_sub_one₀ (by norm_num)]; ring
    rw [c1, m2, hd, hsub, e2, zero_mul, dbl_zero, zero_div, dbl_zero, zero_add, dbl_pow (k - 1) (by omega), half,
      dbl_pow (k - 1 - 1) (by omega), ← zpow_add₀ (by norm_num), Rounding.double.idem, show k + (k - 1 - 1) = 2 * k - 2 by ring]
  show Except.ok (Rounding.double.rnd (Rounding.double.rnd (((empUpdate s1 x).cov 0 0).val + ((empUpdate s1 x).cov 0 0).val) / 2)) = _
  rw [c2, two_mul (Rounding.double.rnd _)]

theorem dbl_small : Rounding.double.rnd ((2 : ℝ) ^ (-1202 : ℤ)) = 0 := by
  show ieeeRnd 53 (-1074) _ = 0
  have hlog : Int.log 2 |(2 : ℝ) ^ (-1202 : ℤ)| = -1202 := by
    have := log_scale (x := 1) (by norm_num) (-1202)
    rw [mul_one] at this
    rw [this]; simp
  have hu : ulpExp 53 (-1074) ((2 : ℝ) ^ (-1202 : ℤ)) = -1074 := by
    unfold ulpExp; rw [hlog]; norm_num
  unfold ieeeRnd
  rw [hu, halfEven_eq (k := 0)]
  · simp
  · rw [← zpow_sub₀ (by norm_num)]; norm_num
  · intro _; rfl

/-- C120 (limit): with doubles, the observations `0.0` and `1.0` have `covariance_` `0.25`, but the same observations in a
unit `2^600` times larger, `0.0` and `2^-600`, have `covariance_` exactly `0.0`: the square `2^-1202` underflows. So a power of two
is free only as long as nothing underflows, and a non-constant column can have variance zero. -/
theorem C120_underflow :
    ((new (empiricalCls (Fin 1) (Fl Rounding.double)) false).run
      [.fit (.batch [fun _ => 0, fun _ => pow2 0 (by norm_num)])]).covariance.map (fun c => (c 0 0).val) = .ok (1 / 4) ∧
    ((new (empiricalCls (Fin 1) (Fl Rounding.double)) false).run
      [.fit (.batch [fun _ => 0, fun _ => pow2 (-600) (by norm_num)])]).covariance.map (fun c => (c 0 0).val) = .ok 0 ∧
    ¬ Free Rounding.double ((2 : ℝ) ^ (-600 : ℤ)) := by
  refine ⟨?_, ?_, fun hf => ?_⟩
  · rw [two_rows 0 (by norm_num)]
    rw [show (2 * 0 - 2 : ℤ) = -2 by norm_num]
    have a : Rounding.double.rnd ((2 : ℝ) ^ (-2 : ℤ)) = (2 : ℝ) ^ (-2 : ℤ) := dbl_pow (-2) (by norm_num)
    have b : (2 : ℝ) * (2 : ℝ) ^ (-2 : ℤ) = (2 : ℝ) ^ (-1 : ℤ) := by norm_num
    have c : (2 : ℝ) ^ (-1 : ℤ) / 2 = (2 : ℝ) ^ (-2 : ℤ) := by norm_num
    rw [a, b, dbl_pow (-1) (by norm_num), c, a]
    norm_num
  · rw [two_rows (-600) (by norm_num), show (2 * (-600) - 2 : ℤ) = -1202 by norm_num, dbl_small]
    simp [dbl_zero]
  · have h := hf ((2 : ℝ) ^ (-602 : ℤ))
    have hm : (2 : ℝ) ^ (-600 : ℤ) * (2 : ℝ) ^ (-602 : ℤ) = (2 : ℝ) ^ (-1202 : ℤ) := by
      rw [← zpow_add₀ (two_ne_zero), show (-600 + -602 : ℤ) = -1202 by norm_num]
    have h3 := dbl_pow (-602) (by norm_num)
    generalize (2 : ℝ) ^ (-600 : ℤ) = a at *
    generalize (2 : ℝ) ^ (-602 : ℤ) = b at *
    rw [h3, hm, dbl_small] at h
    exact (two_zpow_pos (-1202)).ne h

/-! ### The hypotheses are met: IEEE doubles, the three rows of `demoFl`, second column with its sign reversed. -/

example : ∃ hw : ∀ i : Fin 2, Free Rounding.double ((![1, -1] : Fin 2 → ℝ) i),
    let o := (new (ewaFlCls Rounding.double (Fin 2)) ⟨r005, false⟩).run [.partialFit (.batch demoFl)]
    let o' := (new (ewaFlCls Rounding.double (Fin 2)) ⟨r005, false⟩).run ([.partialFit (.batch demoFl)].map (mapCall (pick id hw)))
    ∃ c c', o.covariance = .ok c ∧ o'.covariance = .ok c' ∧ (c' 0 1).val = - (c 0 1).val ∧ c' 1 1 = c 1 1 := by
  have hs : ∀ i : Fin 2, (![1, -1] : Fin 2 → ℝ) i = 1 ∨ (![1, -1] : Fin 2 → ℝ) i = -1 := by
    intro i; fin_cases i <;> simp
  refine ⟨fun i => free_sign _ (hs i), ?_⟩
  have hne : used false [Call.partialFit (.batch demoFl)] ≠ [] := by rw [demoFl_used _ rfl]; simp [demoFl]
  have h2 := run_covariance (ewaFl_lawful Rounding.double (Fin 2)) ⟨r005, false⟩ [.partialFit (.batch demoFl)] hne
  have := (C120_signs (R := Rounding.double) ![1, -1] hs (fun i => free_sign _ (hs i)) ⟨r005, false⟩ [.partialFit (.batch demoFl)]).2.1
  intro o o'
  have e : o'.covariance = o.covariance.map (pickMat id (fun i => free_sign _ (hs i))) := this
  rw [h2] at e
  refine ⟨_, _, h2, e, ?_, ?_⟩
  · show (![1, -1] : Fin 2 → ℝ) 0 * (![1, -1] : Fin 2 → ℝ) 1 * _ = _
    simp [Fl.val]
  · apply Subtype.ext
    show (![1, -1] : Fin 2 → ℝ) 1 * (![1, -1] : Fin 2 → ℝ) 1 * _ = _
    simp [Fl.val]

end Precise
