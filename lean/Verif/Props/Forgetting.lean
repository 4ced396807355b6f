import Verif.Spec.Forgetting
import Verif.Lemmas.Merge
import Verif.Props.Continuity

/-!
# C114: the past is forgotten
-/

set_option linter.all false

open Matrix Filter Topology

namespace Precise

open Spec Obj

variable {ι : Type} [Fintype ι] [DecidableEq ι]

theorem firstRows_succ (k : ℕ) (x : ℕ → ι → ℝ) : firstRows (k + 1) x = firstRows k x ++ [x k] := by
  simp [firstRows, List.range_succ]

theorem firstRows_length (k : ℕ) (x : ℕ → ι → ℝ) : (firstRows k x).length = k := by simp [firstRows]

theorem forgets_of_fold {C : Cls ι ℝ} (hC : Lawful C) (p : C.Param)
    (h : ∀ (a b : List (ι → ℝ)) (x y : ℕ → ι → ℝ), (∀ i, Merge (fun k => x k i) (fun k => y k i)) →
      let S := fun k => (a ++ firstRows k x).foldl (C.updateState p) (C.initState p)
      let S' := fun k => (b ++ firstRows k y).foldl (C.updateState p) (C.initState p)
      (∀ i, Merge (fun k => C.toMean p (S k) i) (fun k => C.toMean p (S' k) i)) ∧
      (∀ i j, Merge (fun k => C.toCov p (S k) i j) (fun k => C.toCov p (S' k) i j))) : Forgets C p := by
  intro a b x y hxy calls calls' hu hu'
  obtain ⟨h1, h2⟩ := h a b x y hxy
  constructor
  · intro m m' hm hm' i
    refine (h1 i).congr ?_ ?_
    · filter_upwards [hm] with k e
      rw [(run_location_inv hC p _ _ e).2, hu]
    · filter_upwards [hm'] with k e
      rw [(run_location_inv hC p _ _ e).2, hu']
  · intro c c' hc hc' i j
    have : Merge (fun k => (C.toCov p ((a ++ firstRows k x).foldl (C.updateState p) (C.initState p)) i j +
        C.toCov p ((a ++ firstRows k x).foldl (C.updateState p) (C.initState p)) j i) * (1 / 2))
        (fun k => (C.toCov p ((b ++ firstRows k y).foldl (C.updateState p) (C.initState p)) i j +
        C.toCov p ((b ++ firstRows k y).foldl (C.updateState p) (C.initState p)) j i) * (1 / 2)) := ((h2 i j).add (h2 j i)).mul (Merge.const _)
    refine this.congr ?_ ?_
    · filter_upwards [hc] with k e
      rw [(run_covariance_inv hC p _ _ e).2, hu]
      simp only [toSymmetric, Matrix.of_apply]
      ring
    · filter_upwards [hc'] with k e
      rw [(run_covariance_inv hC p _ _ e).2, hu']
      simp only [toSymmetric, Matrix.of_apply]
      ring

/-! ## Exponential states -/

section Ewa
variable {a b : List (ι → ℝ)} {x y : ℕ → ι → ℝ} {r : ℝ}

theorem ewa_post (r : ℝ) (a : List (ι → ℝ)) (x : ℕ → ι → ℝ) : ∀ᶠ k in atTop,
    (∀ i, (ewaFold r (a ++ firstRows (k + 1) x)).mean i = (1 - r) * (ewaFold r (a ++ firstRows k x)).mean i + r * x k i) ∧
    (∀ i j, (ewaFold r (a ++ firstRows (k + 1) x)).cov i j = (1 - r) * (ewaFold r (a ++ firstRows k x)).cov i j +
      r * ((x k i - (ewaFold r (a ++ firstRows k x)).mean i) * (x k j - (ewaFold r (a ++ firstRows k x)).mean j))) := by
  filter_upwards [eventually_ge_atTop (ewaBurnN r)] with k hk
  have e : ewaFold r (a ++ firstRows (k + 1) x) = ewaUpdate (ewaFold r (a ++ firstRows k x)) (x k) := by
    rw [firstRows_succ, ← List.append_assoc, ewaFold_snoc]
  rw [e]
  unfold ewaUpdate
  rw [if_neg (by rw [ewaFold_n, ewaFold_nBurn, List.length_append, firstRows_length]; omega), ewaFold_r]
  refine ⟨fun i => rfl, fun i j => ?_⟩
  simp only [ewaBlend, Matrix.add_apply, Matrix.smul_apply, outer, Matrix.of_apply, smul_eq_mul]

theorem ewa_merge_mean (h0 : 0 < r) (h1 : r ≤ 1) (h : ∀ i, Merge (fun k => x k i) (fun k => y k i)) (a b : List (ι → ℝ)) (i : ι) :
    Merge (fun k => (ewaFold r (a ++ firstRows k x)).mean i) (fun k => (ewaFold r (b ++ firstRows k y)).mean i) :=
  Merge.ewa h0 h1 (h i) ((ewa_post r a x).mono fun k hk => hk.1 i) ((ewa_post r b y).mono fun k hk => hk.1 i)

theorem ewa_merge_cov (h0 : 0 < r) (h1 : r ≤ 1) (h : ∀ i, Merge (fun k => x k i) (fun k => y k i)) (a b : List (ι → ℝ)) (i j : ι) :
    Merge (fun k => (ewaFold r (a ++ firstRows k x)).cov i j) (fun k => (ewaFold r (b ++ firstRows k y)).cov i j) :=
  Merge.ewa h0 h1 (((h i).sub (ewa_merge_mean h0 h1 h a b i)).mul ((h j).sub (ewa_merge_mean h0 h1 h a b j)))
    ((ewa_post r a x).mono fun k hk => hk.2 i j) ((ewa_post r b y).mono fun k hk => hk.2 i j)

end Ewa

/-- A continuous function of the (symmetric) covariance and one more number. -/
theorem Spec.Merge.matrix {κ : Type} [Fintype κ] {A : Set (κ → κ → ℝ)} (hA : IsClosed A) (G : Matrix κ κ ℝ × ℝ → ℝ)
    (hG : Continuous fun t : A × ℝ => G (Matrix.of t.1.1, t.2))
    {S S' : ℕ → Matrix κ κ ℝ} {w w' : ℕ → ℝ} (hS : ∀ k, (fun i j => S k i j) ∈ A) (hS' : ∀ k, (fun i j => S' k i j) ∈ A)
    (h : ∀ i j, Merge (fun k => S k i j) (fun k => S' k i j)) (hw : Merge w w') : Merge (fun k => G (S k, w k)) (fun k => G (S' k, w' k)) := by
  let A' : Set (Option (κ × κ) → ℝ) := {z | (fun i j => z (some (i, j))) ∈ A}
  have cmap : Continuous fun z : Option (κ × κ) → ℝ => fun i j => z (some (i, j)) := continuous_pi fun i => continuous_pi fun j => continuous_apply _
  have hA' : IsClosed A' := hA.preimage cmap
  have := Merge.map (κ := Option (κ × κ)) hA' (g := fun z => G (Matrix.of fun i j => z (some (i, j)), z none))
    (u := fun k o => match o with | none => w k | some ij => S k ij.1 ij.2) (v := fun k o => match o with | none => w' k | some ij => S' k ij.1 ij.2)
    (by
      rw [continuousOn_iff_continuous_restrict]
      have : Continuous fun z : A' => ((⟨fun i j => z.1 (some (i, j)), z.2⟩, z.1 none) : A × ℝ) :=
        ((cmap.comp continuous_subtype_val).subtype_mk _).prodMk ((continuous_apply none).comp continuous_subtype_val)
      exact hG.comp this)
    (Eventually.of_forall hS) (Eventually.of_forall hS')
    (by
      rintro (_ | ⟨i, j⟩)
      · exact hw
      · exact h i j)
  exact this

/-! ## The classes -/

/-- C114: EwaCovariance. -/
theorem C114_ewa (p : RParam ℝ) (h0 : 0 < p.r) (h1 : p.r ≤ 1) : Forgets (ewaCls ι ℝ) p :=
  forgets_of_fold (ewa_lawful ι ℝ) p fun a b x y h => ⟨fun i => ewa_merge_mean h0 h1 h a b i, fun i j => ewa_merge_cov h0 h1 h a b i j⟩

omit [Fintype ι] [DecidableEq ι] in
theorem list_expand (xs : List (ι → ℝ)) (i j : ι) (p q : ℝ) : (xs.map fun x => (x i - p) * (x j - q)).sum
    = (xs.map fun x => x i * x j).sum - p * (xs.map fun x => x j).sum - q * (xs.map fun x => x i).sum + xs.length * (p * q) := by
  induction xs with
  | nil => simp
  | cons x xs ih => simp only [List.map_cons, List.sum_cons, ih, List.length_cons]; push_cast; ring

omit [Fintype ι] [DecidableEq ι] in
theorem covOf_moments {xs : List (ι → ℝ)} (h : xs ≠ []) (i j : ι) : covOf xs i j = (xs.map fun x => x i * x j).sum / xs.length - meanOf xs i * meanOf xs j := by
  have hn : (xs.length : ℝ) ≠ 0 := by simpa using h
  simp only [covOf, Matrix.of_apply, list_expand, meanOf]
  field_simp; ring

/-- C114: EmpiricalCovariance: an average forgets too, only more slowly. -/
theorem C114_empirical (d : Bool) : Forgets (empiricalCls ι ℝ) d := by
  intro a b x y h calls calls' hu hu'
  have hs : ∀ (f : (ι → ℝ) → ℝ) (a : List (ι → ℝ)) (x : ℕ → ι → ℝ) (k : ℕ), ((a ++ firstRows k x).map f).sum / ((a ++ firstRows k x).length : ℝ)
      = ((a.map f).sum + ∑ t ∈ Finset.range k, f (x t)) / ((a.length + k : ℕ) : ℝ) := by
    intro f a x k
    rw [List.map_append, List.sum_append, List.length_append, firstRows_length, firstRows, List.map_map]
    rfl
  have hm : ∀ i, Merge (fun k => meanOf (a ++ firstRows k x) i) (fun k => meanOf (b ++ firstRows k y) i) := by
    intro i
    simp only [meanOf, hs (fun z => z i)]
    exact (h i).cesaro _ _ _ _
  have hne : ∀ (a : List (ι → ℝ)) (x : ℕ → ι → ℝ), ∀ᶠ k in atTop, a ++ firstRows k x ≠ [] := by
    intro a x
    filter_upwards [eventually_gt_atTop 0] with k hk e
    have := congrArg List.length e
    rw [List.length_append, firstRows_length] at this
    simp only [List.length_nil] at this; omega
  have hcv : ∀ i j, Merge (fun k => covOf (a ++ firstRows k x) i j) (fun k => covOf (b ++ firstRows k y) i j) := by
    intro i j
    have h2 : Merge (fun k => ((a ++ firstRows k x).map fun z => z i * z j).sum / ((a ++ firstRows k x).length : ℝ))
        (fun k => ((b ++ firstRows k y).map fun z => z i * z j).sum / ((b ++ firstRows k y).length : ℝ)) := by
      simp only [hs (fun z => z i * z j)]
      exact ((h i).mul (h j)).cesaro _ _ _ _
    refine (h2.sub ((hm i).mul (hm j))).congr ?_ ?_
    · filter_upwards [hne a x] with k hk using covOf_moments hk i j
    · filter_upwards [hne b y] with k hk using covOf_moments hk i j
  have hu : ∀ k, used d (calls k) = a ++ firstRows k x := hu
  have hu' : ∀ k, used d (calls' k) = b ++ firstRows k y := hu'
  constructor
  · intro m m' em em' i
    refine (hm i).congr ?_ ?_
    · filter_upwards [em, hne a x] with k e hk
      have := (C15_batch d (calls k) (by rw [hu]; exact hk)).1
      rw [e, hu] at this; rw [Except.ok.inj this]
    · filter_upwards [em', hne b y] with k e hk
      have := (C15_batch d (calls' k) (by rw [hu']; exact hk)).1
      rw [e, hu'] at this; rw [Except.ok.inj this]
  · intro c c' ec ec' i j
    refine (hcv i j).congr ?_ ?_
    · filter_upwards [ec, hne a x] with k e hk
      have := (C15_batch d (calls k) (by rw [hu]; exact hk)).2.1
      rw [e, hu] at this; rw [Except.ok.inj this]
    · filter_upwards [ec', hne b y] with k e hk
      have := (C15_batch d (calls' k) (by rw [hu']; exact hk)).2.1
      rw [e, hu'] at this; rw [Except.ok.inj this]

/-- C114: DiagonalCovariance. -/
theorem C114_diagonal (p : RParam ℝ) (h0 : 0 < p.r) (h1 : p.r ≤ 1) : Forgets (diagonalCls ι ℝ) p := by
  refine forgets_of_fold (diagonal_lawful ι ℝ) p fun a b x y h => ?_
  have hst : ∀ xs : List (ι → ℝ), let s : DiagState ι ℝ := xs.foldl diagUpdate (diagInit p.r)
      s.nSamples = xs.length ∧ s.r = p.r ∧ s.nBurn = ewaBurnN p.r := by
    intro xs
    induction xs using List.reverseRecOn with
    | nil => exact ⟨rfl, rfl, rfl⟩
    | append_singleton xs x ih =>
      simp only [List.foldl_append, List.foldl_cons, List.foldl_nil, List.length_append, List.length_singleton]
      generalize (xs.foldl diagUpdate (diagInit p.r) : DiagState ι ℝ) = s at ih
      obtain ⟨i1, i2, i3⟩ := ih
      unfold diagUpdate
      simp only []
      split <;> exact ⟨by simp only [i1], i2, i3⟩
  have post : ∀ (a : List (ι → ℝ)) (x : ℕ → ι → ℝ), let S := fun k => ((a ++ firstRows k x).foldl diagUpdate (diagInit p.r) : DiagState ι ℝ)
      ∀ᶠ k in atTop, (∀ i, (S (k + 1)).mean i = (1 - p.r) * (S k).mean i + p.r * x k i) ∧
        ∀ i, (S (k + 1)).var i = (1 - p.r) * (S k).var i + p.r * ((x k i - (S k).mean i) * (x k i - (S k).mean i)) := by
    intro a x S
    filter_upwards [eventually_ge_atTop (ewaBurnN p.r)] with k hk
    have e : S (k + 1) = diagUpdate (S k) (x k) := by
      simp only [S, firstRows_succ, ← List.append_assoc, List.foldl_append, List.foldl_cons, List.foldl_nil]
    obtain ⟨i1, i2, i3⟩ := hst (a ++ firstRows k x)
    have i1 : (S k).nSamples = _ := i1
    have i2 : (S k).r = _ := i2
    have i3 : (S k).nBurn = _ := i3
    rw [e]
    generalize S k = s at *
    unfold diagUpdate
    simp only []
    rw [if_neg (by rw [i1, i3, List.length_append, firstRows_length]; omega)]
    simp only [i2]
    exact ⟨fun i => trivial, fun i => trivial⟩
  have hm : ∀ i, Merge (fun k => ((a ++ firstRows k x).foldl diagUpdate (diagInit p.r) : DiagState ι ℝ).mean i)
      (fun k => ((b ++ firstRows k y).foldl diagUpdate (diagInit p.r) : DiagState ι ℝ).mean i) := fun i =>
    Merge.ewa h0 h1 (h i) ((post a x).mono fun k hk => hk.1 i) ((post b y).mono fun k hk => hk.1 i)
  have hv : ∀ i, Merge (fun k => ((a ++ firstRows k x).foldl diagUpdate (diagInit p.r) : DiagState ι ℝ).var i)
      (fun k => ((b ++ firstRows k y).foldl diagUpdate (diagInit p.r) : DiagState ι ℝ).var i) := fun i =>
    Merge.ewa h0 h1 (((h i).sub (hm i)).mul ((h i).sub (hm i))) ((post a x).mono fun k hk => hk.2 i) ((post b y).mono fun k hk => hk.2 i)
  refine ⟨hm, fun i j => ?_⟩
  show Merge (fun k => Matrix.diagonal ((a ++ firstRows k x).foldl diagUpdate (diagInit p.r) : DiagState ι ℝ).var i j)
    (fun k => Matrix.diagonal ((b ++ firstRows k y).foldl diagUpdate (diagInit p.r) : DiagState ι ℝ).var i j)
  by_cases hij : i = j
  · subst hij; simp only [diagonal_apply_eq]; exact hv i
  · simp only [diagonal_apply_ne _ hij]; exact Merge.const 0

/-- A continuous function of the EWA covariance alone. -/
theorem merge_ewaCov {r : ℝ} (h0 : 0 < r) (h1 : r ≤ 1) {x y : ℕ → ι → ℝ} (h : ∀ i, Merge (fun k => x k i) (fun k => y k i)) (a b : List (ι → ℝ))
    (G : EwaState ι ℝ → Matrix ι ι ℝ) (hG : ∀ s s' : EwaState ι ℝ, s.r = s'.r → s.cov = s'.cov → G s = G s')
    (hc : ∀ (T : Type) [TopologicalSpace T] (s : T → EwaState ι ℝ), (∀ t, (s t).r = r) → (∀ t, Symm (s t).cov) → (Continuous fun t => (s t).cov) → Continuous fun t => G (s t))
    (i j : ι) : Merge (fun k => G (ewaFold r (a ++ firstRows k x)) i j) (fun k => G (ewaFold r (b ++ firstRows k y)) i j) := by
  have hA : IsClosed {z : ι → ι → ℝ | ∀ i j, z i j = z j i} := by
    simp only [Set.setOf_forall]
    exact isClosed_iInter fun i => isClosed_iInter fun j => isClosed_eq (by fun_prop) (by fun_prop)
  have := Merge.matrix hA (fun z => G { (ewaInit r : EwaState ι ℝ) with cov := z.1 } i j) (by
      have := hc ({z : ι → ι → ℝ | ∀ i j, z i j = z j i} × ℝ) (fun t => { (ewaInit r : EwaState ι ℝ) with cov := Matrix.of t.1.1 }) (fun t => rfl)
        (fun t i j => t.1.2 i j) (continuous_matrix fun i j =>
          (show Continuous fun t : {z : ι → ι → ℝ | ∀ i j, z i j = z j i} × ℝ => t.1.1 i j from
            (continuous_apply j).comp ((continuous_apply i).comp (continuous_subtype_val.comp continuous_fst))))
      exact this.matrix_elem i j)
    (S := fun k => (ewaFold r (a ++ firstRows k x)).cov) (S' := fun k => (ewaFold r (b ++ firstRows k y)).cov)
    (fun k i j => symm_ewaFold r _ i j) (fun k i j => symm_ewaFold r _ i j) (ewa_merge_cov h0 h1 h a b) (Merge.const 0)
  refine this.congr (Eventually.of_forall fun k => ?_) (Eventually.of_forall fun k => ?_)
  · rw [hG (ewaFold r (a ++ firstRows k x)) { (ewaInit r : EwaState ι ℝ) with cov := (ewaFold r (a ++ firstRows k x)).cov } (ewaFold_r r _) rfl]
  · rw [hG (ewaFold r (b ++ firstRows k y)) { (ewaInit r : EwaState ι ℝ) with cov := (ewaFold r (b ++ firstRows k y)).cov } (ewaFold_r r _) rfl]

/-- C114: ShrunkCovariance, either target, any intensity. -/
theorem C114_shrunk (p : ShrunkParam) (h0 : 0 < p.r) (h1 : p.r ≤ 1) : Forgets (shrunkCls ι) p :=
  forgets_of_fold (shrunk_lawful ι) p fun a b x y h => ⟨fun i => ewa_merge_mean h0 h1 h a b i, fun i j =>
    merge_ewaCov h0 h1 h a b (shrunkCov p) (fun s s' _ hc => by unfold shrunkCov; rw [hc]) (fun T _ s _ _ hc => continuous_shrunkCov p (continuous_entries.1 hc)) i j⟩

/-- C114: OASCovariance. -/
theorem C114_oas (p : RParam ℝ) (h0 : 0 < p.r) (h1 : p.r ≤ 1) : Forgets (oasCls ι ℝ) p :=
  forgets_of_fold (oas_lawful ι ℝ) p fun a b x y h => ⟨fun i => ewa_merge_mean h0 h1 h a b i, fun i j =>
    merge_ewaCov h0 h1 h a b oasCov (fun s s' hr hc => by unfold oasCov; rw [hc, hr]) (fun T _ s hr hs hc => continuous_oasCov hr hs hc) i j⟩

/-- C114: SchurCovariance (`gamma ≥ 0` if geodesic). -/
theorem C114_schur (L : Lapack) {d : ℕ} (p : SchurParam) (h0 : 0 < p.r) (h1 : p.r ≤ 1) (hg : p.interpolation = "geodesic" → 0 ≤ p.gamma) :
    Forgets (schurCls L d) p :=
  forgets_of_fold (schur_lawful L d) p fun a b x y h => ⟨fun i => ewa_merge_mean h0 h1 h a b i, fun i j =>
    merge_ewaCov h0 h1 h a b (schurCov L p) (fun s s' _ hc => by unfold schurCov; rw [hc]) (fun T _ s _ _ hc => continuous_schurCov L p hg s hc) i j⟩

/-- C114: BlockCovariance. -/
theorem C114_block (L : Lapack) {d : ℕ} (p : BlockParam) (hn : 1 ≤ p.nBlocks) (hd : 1 ≤ d) (h0 : 0 < p.r) (h1 : p.r ≤ 1) : Forgets (blockCls L d) p := by
  intro a b x y h calls calls' hu hu'
  have hf := C114_schur L (d := d) (⟨p.r, p.nBlocks, 0, "linear", p.diff⟩ : SchurParam) h0 h1 (fun _ => le_rfl) a b x y h calls calls' hu hu'
  refine ⟨fun m m' em em' => hf.1 m m' ?_ ?_, fun c c' ec ec' => hf.2 c c' ?_ ?_⟩
  · filter_upwards [em] with k e; rw [← (C26_is_schur L p hn hd "linear" (calls k)).2]; exact e
  · filter_upwards [em'] with k e; rw [← (C26_is_schur L p hn hd "linear" (calls' k)).2]; exact e
  · filter_upwards [ec] with k e; rw [← (C26_is_schur L p hn hd "linear" (calls k)).1]; exact e
  · filter_upwards [ec'] with k e; rw [← (C26_is_schur L p hn hd "linear" (calls' k)).1]; exact e

/-- A continuous function of the EWA covariance and one more merging number. -/
theorem merge_ewaCov_num {r : ℝ} (h0 : 0 < r) (h1 : r ≤ 1) {x y : ℕ → ι → ℝ} (h : ∀ i, Merge (fun k => x k i) (fun k => y k i)) (a b : List (ι → ℝ))
    (G : Matrix ι ι ℝ → ℝ → Matrix ι ι ℝ)
    (hc : ∀ (T : Type) [TopologicalSpace T] (S : T → Matrix ι ι ℝ) (w : T → ℝ), Continuous S → Continuous w → Continuous fun t => G (S t) (w t))
    {w w' : ℕ → ℝ} (hw : Merge w w')
    (i j : ι) : Merge (fun k => G (ewaFold r (a ++ firstRows k x)).cov (w k) i j) (fun k => G (ewaFold r (b ++ firstRows k y)).cov (w' k) i j) := by
  exact Merge.matrix (A := Set.univ) isClosed_univ (fun z => G z.1 z.2 i j) (by
      have := hc (↥(Set.univ : Set (ι → ι → ℝ)) × ℝ) (fun t => Matrix.of t.1.1) (fun t => t.2) (continuous_matrix fun i j =>
          (show Continuous fun t : ↥(Set.univ : Set (ι → ι → ℝ)) × ℝ => t.1.1 i j from
            (continuous_apply j).comp ((continuous_apply i).comp (continuous_subtype_val.comp continuous_fst)))) continuous_snd
      exact this.matrix_elem i j)
    (fun k => Set.mem_univ _) (fun k => Set.mem_univ _) (ewa_merge_cov h0 h1 h a b) hw

/-- C114: LedoitWolfCovariance. -/
theorem C114_ledoitWolf (p : RParam ℝ) (h0 : 0 < p.r) (h1 : p.r ≤ 1) : Forgets (ledoitWolfCls ι ℝ) p := by
  refine forgets_of_fold (ledoitWolf_lawful ι ℝ) p fun a b x y h => ?_
  have post : ∀ (a : List (ι → ℝ)) (x : ℕ → ι → ℝ), ∀ᶠ k in atTop,
      (lwFold p.r (a ++ firstRows (k + 1) x)).piBar = (1 - p.r) * (lwFold p.r (a ++ firstRows k x)).piBar + p.r *
        ((∑ i, ∑ j, ((x k i - (ewaFold p.r (a ++ firstRows k x)).mean i) * (x k j - (ewaFold p.r (a ++ firstRows k x)).mean j) -
          (ewaFold p.r (a ++ firstRows k x)).cov i j) * ((x k i - (ewaFold p.r (a ++ firstRows k x)).mean i) * (x k j - (ewaFold p.r (a ++ firstRows k x)).mean j) -
          (ewaFold p.r (a ++ firstRows k x)).cov i j)) * (1 / (Fintype.card ι : ℝ))) := by
    intro a x
    filter_upwards [eventually_ge_atTop (ewaBurnN p.r)] with k hk
    have e : lwFold p.r (a ++ firstRows (k + 1) x) = lwUpdate (lwFold p.r (a ++ firstRows k x)) (x k) := by
      simp only [lwFold, firstRows_succ, ← List.append_assoc, List.foldl_append, List.foldl_cons, List.foldl_nil]
    have hE := lwFold_toEwa p.r (a ++ firstRows k x)
    rw [e]
    generalize lwFold p.r (a ++ firstRows k x) = s at hE ⊢
    unfold lwUpdate
    have i1 : s.nSamples = (a ++ firstRows k x).length := by rw [show s.nSamples = s.toEwaState.nSamples from rfl, hE, ewaFold_n]
    have i2 : s.r = p.r := by rw [show s.r = s.toEwaState.r from rfl, hE, ewaFold_r]
    have i3 : s.nBurn = ewaBurnN p.r := by rw [show s.nBurn = s.toEwaState.nBurn from rfl, hE, ewaFold_nBurn]
    rw [if_neg (by rw [i1, i3, List.length_append, firstRows_length]; omega)]
    simp only [i2, outer, Matrix.of_apply]
    rw [show s.mean = s.toEwaState.mean from rfl, show s.cov = s.toEwaState.cov from rfl, hE]
    simp only [sq, mul_one_div]
  have hpi : Merge (fun k => (lwFold p.r (a ++ firstRows k x)).piBar) (fun k => (lwFold p.r (b ++ firstRows k y)).piBar) := by
    refine Merge.ewa h0 h1 ?_ (post a x) (post b y)
    refine (Merge.sum _ fun i _ => Merge.sum _ fun j _ => ?_).mul (Merge.const _)
    have hd := fun i => (h i).sub (ewa_merge_mean h0 h1 h a b i)
    have ht := ((hd i).mul (hd j)).sub (ewa_merge_cov h0 h1 h a b i j)
    exact ht.mul ht
  refine ⟨fun i => ?_, fun i j => ?_⟩
  · refine (ewa_merge_mean h0 h1 h a b i).congr (Eventually.of_forall fun k => ?_) (Eventually.of_forall fun k => ?_)
    · exact congrFun (congrArg (fun s : EwaState ι ℝ => s.mean) (lwFold_toEwa p.r (a ++ firstRows k x))) i
    · exact congrFun (congrArg (fun s : EwaState ι ℝ => s.mean) (lwFold_toEwa p.r (b ++ firstRows k y))) i
  · have := merge_ewaCov_num h0 h1 h a b (fun S w => lwCov { toEwaState := { (ewaInit p.r : EwaState ι ℝ) with cov := S }, piBar := w })
      (fun T _ S w hS hw => continuous_lwCov (r := p.r) (fun t => rfl) hS hw) hpi i j
    have e : ∀ xs : List (ι → ℝ), lwCov (lwFold p.r xs) = lwCov { toEwaState := { (ewaInit p.r : EwaState ι ℝ) with cov := (ewaFold p.r xs).cov }, piBar := (lwFold p.r xs).piBar } := by
      intro xs
      have hE := lwFold_toEwa p.r xs
      have e1 : (lwFold p.r xs).cov = (ewaFold p.r xs).cov := congrArg (fun s : EwaState ι ℝ => s.cov) hE
      have e2 : (lwFold p.r xs).r = p.r := (congrArg (fun s : EwaState ι ℝ => s.r) hE).trans (ewaFold_r p.r xs)
      unfold lwCov
      simp only [e1, e2]; rfl
    refine this.congr (Eventually.of_forall fun k => ?_) (Eventually.of_forall fun k => ?_)
    · exact congrFun (congrFun (e _) i) j
    · exact congrFun (congrFun (e _) i) j

/-- C114: SchurLedoitWolfCovariance. -/
theorem C114_schurLW (L : Lapack) {d : ℕ} (p : BlockParam) (h0 : 0 < p.r) (h1 : p.r ≤ 1) : Forgets (schurLWCls L d) p := by
  refine forgets_of_fold (schurLW_lawful L d) p fun a b x y h => ?_
  have post : ∀ (a : List (Fin d → ℝ)) (x : ℕ → Fin d → ℝ), ∀ᶠ k in atTop,
      (slwFold p (a ++ firstRows (k + 1) x)).piCross = (1 - p.r) * (slwFold p (a ++ firstRows k x)).piCross + p.r *
        (∑ i : Fin d, ∑ j : Fin d, (if blockId d (schurNb p.nBlocks d) i ≠ blockId d (schurNb p.nBlocks d) j then 1 else 0) *
          (((x k i - (ewaFold p.r (a ++ firstRows k x)).mean i) * (x k j - (ewaFold p.r (a ++ firstRows k x)).mean j) -
          (ewaFold p.r (a ++ firstRows k x)).cov i j) * ((x k i - (ewaFold p.r (a ++ firstRows k x)).mean i) * (x k j - (ewaFold p.r (a ++ firstRows k x)).mean j) -
          (ewaFold p.r (a ++ firstRows k x)).cov i j))) := by
    intro a x
    filter_upwards [eventually_ge_atTop (ewaBurnN p.r)] with k hk
    have e : slwFold p (a ++ firstRows (k + 1) x) = slwUpdate p (slwFold p (a ++ firstRows k x)) (x k) := by
      simp only [slwFold, firstRows_succ, ← List.append_assoc, List.foldl_append, List.foldl_cons, List.foldl_nil]
    have hE := slwFold_toEwa p (a ++ firstRows k x)
    rw [e]
    generalize slwFold p (a ++ firstRows k x) = s at hE ⊢
    unfold slwUpdate
    have i1 : s.nSamples = (a ++ firstRows k x).length := by rw [show s.nSamples = s.toEwaState.nSamples from rfl, hE, ewaFold_n]
    have i2 : s.r = p.r := by rw [show s.r = s.toEwaState.r from rfl, hE, ewaFold_r]
    have i3 : s.nBurn = ewaBurnN p.r := by rw [show s.nBurn = s.toEwaState.nBurn from rfl, hE, ewaFold_nBurn]
    rw [if_neg (by rw [i1, i3, List.length_append, firstRows_length]; omega)]
    simp only [i2, outer, Matrix.of_apply, sumCross]
    rw [show s.mean = s.toEwaState.mean from rfl, show s.cov = s.toEwaState.cov from rfl, hE]
    simp only [sq, ite_mul, one_mul, zero_mul]
  have hpi : Merge (fun k => (slwFold p (a ++ firstRows k x)).piCross) (fun k => (slwFold p (b ++ firstRows k y)).piCross) := by
    refine Merge.ewa h0 h1 ?_ (post a x) (post b y)
    refine Merge.sum _ fun i _ => Merge.sum _ fun j _ => (Merge.const _).mul ?_
    have hd := fun i => (h i).sub (ewa_merge_mean h0 h1 h a b i)
    have ht := ((hd i).mul (hd j)).sub (ewa_merge_cov h0 h1 h a b i j)
    exact ht.mul ht
  refine ⟨fun i => ?_, fun i j => ?_⟩
  · refine (ewa_merge_mean h0 h1 h a b i).congr (Eventually.of_forall fun k => ?_) (Eventually.of_forall fun k => ?_)
    · exact congrFun (congrArg (fun s : EwaState (Fin d) ℝ => s.mean) (slwFold_toEwa p (a ++ firstRows k x))) i
    · exact congrFun (congrArg (fun s : EwaState (Fin d) ℝ => s.mean) (slwFold_toEwa p (b ++ firstRows k y))) i
  · have := merge_ewaCov_num h0 h1 h a b (fun S w => slwCov L p { toEwaState := { (ewaInit p.r : EwaState (Fin d) ℝ) with cov := S }, piCross := w })
      (fun T _ S w hS hw => continuous_slwCov L p _ (fun t => rfl) hS hw) hpi i j
    have e : ∀ xs : List (Fin d → ℝ), slwCov L p (slwFold p xs) =
        slwCov L p { toEwaState := { (ewaInit p.r : EwaState (Fin d) ℝ) with cov := (ewaFold p.r xs).cov }, piCross := (slwFold p xs).piCross } := by
      intro xs
      have hE := slwFold_toEwa p xs
      have e1 : (slwFold p xs).cov = (ewaFold p.r xs).cov := congrArg (fun s : EwaState (Fin d) ℝ => s.cov) hE
      have e2 : (slwFold p xs).r = p.r := (congrArg (fun s : EwaState (Fin d) ℝ => s.r) hE).trans (ewaFold_r p.r xs)
      unfold slwCov slwGamma
      simp only [e1, e2]; rfl
    refine this.congr (Eventually.of_forall fun k => ?_) (Eventually.of_forall fun k => ?_)
    · exact congrFun (congrFun (e _) i) j
    · exact congrFun (congrFun (e _) i) j

/-- C114: DCCCovariance. -/
theorem C114_dcc (p : DCCParam) (h0 : 0 < p.r) (h1 : p.r ≤ 1) (v0 : 0 < p.volR.getD p.r) (v1 : p.volR.getD p.r ≤ 1) : Forgets (dccCls ι) p := by
  refine forgets_of_fold (dcc_lawful ι) p fun a b x y h => ?_
  set v := p.volR.getD p.r with hv
  have hst : ∀ xs : List (ι → ℝ), let s : DCCState ι := xs.foldl dccUpdate (dccInit p)
      s.nSamples = xs.length ∧ s.r = p.r ∧ s.volR = v ∧ s.nBurn = ewaBurnN (min p.r v) := by
    intro xs
    induction xs using List.reverseRecOn with
    | nil => exact ⟨rfl, rfl, rfl, rfl⟩
    | append_singleton xs x ih =>
      simp only [List.foldl_append, List.foldl_cons, List.foldl_nil, List.length_append, List.length_singleton]
      generalize (xs.foldl dccUpdate (dccInit p) : DCCState ι) = s at ih
      obtain ⟨i1, i2, i3, i4⟩ := ih
      exact ⟨by simp only [dccUpdate, i1], i2, i3, i4⟩
  let S := fun (a : List (ι → ℝ)) (x : ℕ → ι → ℝ) k => ((a ++ firstRows k x).foldl dccUpdate (dccInit p) : DCCState ι)
  have post : ∀ (a : List (ι → ℝ)) (x : ℕ → ι → ℝ), ∀ᶠ k in atTop,
      (∀ i, (S a x (k + 1)).mean i = (1 - v) * (S a x k).mean i + v * x k i) ∧
      (∀ i, (S a x (k + 1)).h i = (1 - v) * (S a x k).h i + v * ((x k i - (S a x k).mean i) * (x k i - (S a x k).mean i))) ∧
      ∀ i j, (S a x (k + 1)).Q i j = (1 - p.r) * (S a x k).Q i j + p.r *
        (((x k i - (S a x k).mean i) * (1 / Real.sqrt (max ((S a x (k + 1)).h i) EPS))) * ((x k j - (S a x k).mean j) * (1 / Real.sqrt (max ((S a x (k + 1)).h j) EPS)))) := by
    intro a x
    filter_upwards [eventually_ge_atTop (ewaBurnN (min p.r v))] with k hk
    have e : S a x (k + 1) = dccUpdate (S a x k) (x k) := by
      simp only [S, firstRows_succ, ← List.append_assoc, List.foldl_append, List.foldl_cons, List.foldl_nil]
    obtain ⟨i1, i2, i3, i4⟩ := hst (a ++ firstRows k x)
    have i1 : (S a x k).nSamples = _ := i1
    have i2 : (S a x k).r = _ := i2
    have i3 : (S a x k).volR = _ := i3
    have i4 : (S a x k).nBurn = _ := i4
    rw [e]
    generalize S a x k = s at *
    have hb : ¬ s.nSamples + 1 ≤ s.nBurn := by rw [i1, i4, List.length_append, firstRows_length]; omega
    simp only [dccUpdate, if_neg hb, i2, i3]
    refine ⟨fun i => trivial, fun i => trivial, fun i j => ?_⟩
    simp only [Matrix.add_apply, Matrix.smul_apply, outer, Matrix.of_apply, smul_eq_mul, mul_one_div]
  have hm : ∀ i, Merge (fun k => (S a x k).mean i) (fun k => (S b y k).mean i) := fun i =>
    Merge.ewa v0 v1 (h i) ((post a x).mono fun k hk => hk.1 i) ((post b y).mono fun k hk => hk.1 i)
  have hd := fun i => (h i).sub (hm i)
  have hh : ∀ i, Merge (fun k => (S a x k).h i) (fun k => (S b y k).h i) := fun i =>
    Merge.ewa v0 v1 ((hd i).mul (hd i)) ((post a x).mono fun k hk => hk.2.1 i) ((post b y).mono fun k hk => hk.2.1 i)
  have hpos : ∀ x : ℝ, 0 < Real.sqrt (max x EPS) := fun x => Real.sqrt_pos.2 (lt_max_of_lt_right (by unfold EPS; positivity))
  have cinv : Continuous fun z : ℝ => 1 / Real.sqrt (max z EPS) :=
    continuous_const.div (Real.continuous_sqrt.comp (continuous_id.max continuous_const)) fun t => (hpos _).ne'
  have hq : ∀ i j, Merge (fun k => (S a x k).Q i j) (fun k => (S b y k).Q i j) := fun i j =>
    Merge.ewa h0 h1 (((hd i).mul ((hh i).unshift.map₁ cinv)).mul ((hd j).mul ((hh j).unshift.map₁ cinv)))
      ((post a x).mono fun k hk => hk.2.2 i j) ((post b y).mono fun k hk => hk.2.2 i j)
  refine ⟨hm, fun i j => ?_⟩
  have csq : Continuous fun z : ℝ => Real.sqrt (max z EPS) := Real.continuous_sqrt.comp (continuous_id.max continuous_const)
  have c1 := fun i => Merge.map₁ csq (hh i)
  have c2 := fun i => Merge.map₁ cinv (hq i i)
  exact ((hq i j).mul ((c2 i).mul (c2 j))).mul ((c1 i).mul (c1 j))

end Precise
