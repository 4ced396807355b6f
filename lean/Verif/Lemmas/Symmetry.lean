import Verif.Spec.Symmetry
import Verif.Lemmas.Reduce
import Verif.Lemmas.Linalg

/-! Lemmas for the symmetry properties: simulation of two runs, and how the `_linalg` routines commute with a
change of orthonormal coordinates. -/

set_option linter.all false

open Matrix

namespace Precise

open Spec Obj

section Sim
variable {ι κ : Type} [Fintype ι] [Fintype κ]

theorem used_map_additive (g : (ι → ℝ) → κ → ℝ) (hg : ∀ x y, g (x - y) = g x - g y) (d : Bool) (calls : List (Call ι ℝ)) :
    used d (calls.map (mapCall g)) = (used d calls).map g := by
  have h := rowsSinceFit_map g calls []
  simp only [List.map_nil] at h
  unfold used
  rw [h]
  cases d with
  | false => rfl
  | true =>
    show diffs _ = (diffs _).map g
    generalize rowsSinceFit calls [] = xs
    induction xs with
    | nil => rfl
    | cons x t ih =>
      cases t with
      | nil => rfl
      | cons y t =>
        simp only [List.map_cons, diffs] at ih ⊢
        rw [ih, hg]

/-- A simulation relation between the states of two classes transports the attributes. -/
theorem transports_of_sim {C : Cls ι ℝ} {C' : Cls κ ℝ} (hC : Lawful C) (hC' : Lawful C') {p : C.Param} {p' : C'.Param}
    (hd : C'.diff p' = C.diff p) {g g₁ m : (ι → ℝ) → κ → ℝ} {c : Matrix ι ι ℝ → Matrix κ κ ℝ}
    (hu : ∀ calls, used (C.diff p) (calls.map (mapCall g)) = (used (C.diff p) calls).map g₁)
    (R : C.State → C'.State → Prop) (hi : R (C.initState p) (C'.initState p'))
    (hs : ∀ s s' x, R s s' → R (C.updateState p s x) (C'.updateState p' s' (g₁ x)))
    (hm : ∀ s s', R s s' → 0 < C.nSamples s → C'.toMean p' s' = m (C.toMean p s))
    (hc : ∀ s s', R s s' → 0 < C.nSamples s → toSymmetric (C'.toCov p' s') = c (toSymmetric (C.toCov p s))) :
    Transports C C' p p' g m c := by
  intro calls
  have hu' := hu calls
  have hR : ∀ xs : List (ι → ℝ), R (xs.foldl (C.updateState p) (C.initState p))
      ((xs.map g₁).foldl (C'.updateState p') (C'.initState p')) := by
    intro xs
    induction xs using List.reverseRecOn with
    | nil => exact hi
    | append_singleton xs x ih =>
      simp only [List.map_append, List.map_cons, List.map_nil, List.foldl_append, List.foldl_cons, List.foldl_nil]
      exact hs _ _ _ ih
  by_cases h : used (C.diff p) calls = []
  · have h' : used (C'.diff p') (calls.map (mapCall g)) = [] := by rw [hd, hu', h]; rfl
    have a := run_unfitted hC p calls h
    have b := run_unfitted hC' p' _ h'
    have na := (C06_not_fitted_iff hC p calls).1.2 h
    have nb := (C06_not_fitted_iff hC' p' (calls.map (mapCall g))).1.2 h'
    exact ⟨by rw [na, nb], by rw [a.2, b.2]; rfl, by rw [a.1, b.1]; rfl⟩
  · have h' : used (C'.diff p') (calls.map (mapCall g)) ≠ [] := by
      rw [hd, hu']; simpa using h
    have hn : ∀ {ι : Type} [Fintype ι] {C : Cls ι ℝ} (hC : Lawful C) (p : C.Param) (calls : List (Call ι ℝ)),
        ((new C p).run calls).nSamples = (used (C.diff p) calls).length := by
      intro ι _ C hC p calls
      have hst := run_new_state p calls
      unfold Obj.nSamples
      rw [hst]
      show _ = (effective (C.diff p) (rowsSinceFit calls [])).length
      generalize effective (C.diff p) (rowsSinceFit calls []) = ys
      cases ys with
      | nil => rfl
      | cons y ys =>
        show C.nSamples _ = _
        rw [hC.fold_nSamples, hC.n_init]; simp
    have hpos : 0 < C.nSamples ((used (C.diff p) calls).foldl (C.updateState p) (C.initState p)) := by
      rw [hC.fold_nSamples, hC.n_init]
      have := List.length_pos_iff.2 h
      omega
    have hRc := hR (used (C.diff p) calls)
    refine ⟨?_, ?_, ?_⟩
    · rw [hn hC, hn hC', hd, hu']; simp
    · rw [run_location hC p calls h, run_location hC' p' _ h', hd, hu', hm _ _ hRc hpos]; rfl
    · rw [run_covariance hC p calls h, run_covariance hC' p' _ h', hd, hu', hc _ _ hRc hpos]; rfl

end Sim

/-! ### Change of orthonormal coordinates -/

section Orth
variable {ι κ : Type} [Fintype ι] [Fintype κ] [DecidableEq ι] [DecidableEq κ]

/-- `Q` is square orthogonal, possibly between different index types. -/
structure Orth (Q : Matrix κ ι ℝ) : Prop where
  left : Qᵀ * Q = 1
  right : Q * Qᵀ = 1

/-- `Q a Qᵀ` -/
def conj (Q : Matrix κ ι ℝ) (a : Matrix ι ι ℝ) : Matrix κ κ ℝ := Q * a * Qᵀ

variable {Q : Matrix κ ι ℝ} (hQ : Orth Q) (L : Lapack)
include hQ

theorem conj_mul (a b : Matrix ι ι ℝ) : conj Q a * conj Q b = conj Q (a * b) := by
  unfold conj
  have : Q * a * Qᵀ * (Q * b * Qᵀ) = Q * a * (Qᵀ * Q) * b * Qᵀ := by simp only [Matrix.mul_assoc]
  rw [this, hQ.left, Matrix.mul_one]
  simp only [Matrix.mul_assoc]

theorem conj_one : conj Q (1 : Matrix ι ι ℝ) = 1 := by
  unfold conj; rw [Matrix.mul_one, hQ.right]

theorem conj_of_intertwine {a : Matrix ι ι ℝ} {b : Matrix κ κ ℝ} (h : b * Q = Q * a) : b = conj Q a := by
  unfold conj
  rw [← h, Matrix.mul_assoc, hQ.right, Matrix.mul_one]

theorem conj_intertwine (a : Matrix ι ι ℝ) : conj Q a * Q = Q * a := by
  unfold conj
  rw [Matrix.mul_assoc, hQ.left, Matrix.mul_one]

theorem conj_transpose (a : Matrix ι ι ℝ) : (conj Q a)ᵀ = conj Q aᵀ := by
  unfold conj
  simp [Matrix.transpose_mul, Matrix.mul_assoc]

theorem conj_add (a b : Matrix ι ι ℝ) : conj Q (a + b) = conj Q a + conj Q b := by
  unfold conj; rw [Matrix.mul_add, Matrix.add_mul]

theorem conj_smul (c : ℝ) (a : Matrix ι ι ℝ) : conj Q (c • a) = c • conj Q a := by
  unfold conj; rw [Matrix.mul_smul, Matrix.smul_mul]

theorem conj_trace (a : Matrix ι ι ℝ) : (conj Q a).trace = a.trace := by
  unfold conj; rw [Matrix.trace_mul_comm, ← Matrix.mul_assoc, hQ.left, Matrix.one_mul]

theorem toSymmetric_eq' {ι : Type} (a : Matrix ι ι ℝ) : toSymmetric a = (1 / 2 : ℝ) • (a + aᵀ) := by
  ext i j; simp [toSymmetric]; ring

theorem conj_toSymmetric (a : Matrix ι ι ℝ) : toSymmetric (conj Q a) = conj Q (toSymmetric a) := by
  rw [toSymmetric_eq' hQ, toSymmetric_eq' hQ, conj_transpose hQ, conj_smul hQ, conj_add hQ]

theorem conj_symm {a : Matrix ι ι ℝ} (ha : Symm a) : Symm (conj Q a) := by
  have := conj_transpose hQ a
  rw [ha.transpose] at this
  intro i j
  exact congrFun (congrFun this j) i

theorem conj_quad (a : Matrix ι ι ℝ) (x : ι → ℝ) : quad (conj Q a) (Q *ᵥ x) = quad a x := by
  unfold quad conj
  rw [Matrix.mulVec_mulVec, Matrix.mul_assoc (Q * a), hQ.left, Matrix.mul_one, ← Matrix.mulVec_mulVec,
    Matrix.dotProduct_mulVec, Matrix.vecMul_mulVec, hQ.left, ← Matrix.mulVec_transpose, Matrix.transpose_one, Matrix.one_mulVec]

theorem conj_pd (a : Matrix ι ι ℝ) (h : PD a) : PD (conj Q a) := by
  refine ⟨conj_symm hQ h.1, fun y hy => ?_⟩
  have e : y = Q *ᵥ (Qᵀ *ᵥ y) := by rw [Matrix.mulVec_mulVec, hQ.right, Matrix.one_mulVec]
  rw [e, conj_quad hQ]
  refine h.2 _ fun h0 => hy ?_
  rw [e, h0, Matrix.mulVec_zero]

theorem orth_transpose : Orth Qᵀ := ⟨by rw [Matrix.transpose_transpose]; exact hQ.right, by rw [Matrix.transpose_transpose]; exact hQ.left⟩

theorem conj_conj_transpose (a : Matrix ι ι ℝ) : conj Qᵀ (conj Q a) = a := by
  unfold conj
  rw [Matrix.transpose_transpose]
  have : Qᵀ * (Q * a * Qᵀ) * Q = (Qᵀ * Q) * a * (Qᵀ * Q) := by simp only [Matrix.mul_assoc]
  rw [this, hQ.left, Matrix.one_mul, Matrix.mul_one]

theorem conj_pd_iff (a : Matrix ι ι ℝ) : PD (conj Q a) ↔ PD a :=
  ⟨fun h => by have := conj_pd (orth_transpose hQ) _ h; rwa [conj_conj_transpose hQ] at this, conj_pd hQ a⟩

theorem conj_frobSq (a : Matrix ι ι ℝ) : frobSq (conj Q a) = frobSq a := by
  rw [frobSq_eq_trace, frobSq_eq_trace, conj_transpose hQ, conj_mul hQ, conj_trace hQ]

theorem conj_frobNorm (a : Matrix ι ι ℝ) : frobNorm (conj Q a) = frobNorm a := by
  have := conj_frobSq hQ a
  unfold frobSq at this
  unfold frobNorm
  rw [this]

/-- the functional calculus of `eigh` commutes with a change of coordinates -/
theorem conj_eigh {a : Matrix ι ι ℝ} (ha : Symm a) (f : ℝ → ℝ) :
    spec (L.eigh (conj Q a)).2 (fun i => f ((L.eigh (conj Q a)).1 i)) = conj Q (spec (L.eigh a).2 fun i => f ((L.eigh a).1 i)) := by
  refine conj_of_intertwine hQ ?_
  refine intertwine (L.eigh_orth _ ha) (L.eigh_orth _ (conj_symm hQ ha)) Q ?_ f
  rw [← L.eigh_spec ha, ← L.eigh_spec (conj_symm hQ ha), conj_intertwine hQ]

theorem conj_makePosDef (a : Matrix ι ι ℝ) (eps : ℝ) : makePosDef L (conj Q a) eps = conj Q (makePosDef L a eps) := by
  rw [makePosDef_eq, makePosDef_eq, conj_toSymmetric hQ]
  exact conj_eigh hQ L (symm_toSymmetric a) (fun t => max t eps)

theorem conj_nearestPosDef (a : Matrix ι ι ℝ) : nearestPosDef L (conj Q a) = conj Q (nearestPosDef L a) := by
  classical
  rw [nearestPosDef_eq, nearestPosDef_eq, npdStart_eq, npdStart_eq, conj_makePosDef hQ, conj_frobNorm hQ]
  by_cases h : PD (makePosDef L a 0)
  · rw [if_pos h, if_pos ((conj_pd_iff hQ _).2 h)]
  · rw [if_neg h, if_neg (fun h' => h ((conj_pd_iff hQ _).1 h')), conj_add hQ, conj_smul hQ, conj_one hQ]

theorem conj_isPinv {a p : Matrix ι ι ℝ} (h : IsPinv a p) : IsPinv (conj Q a) (conj Q p) := by
  obtain ⟨h1, h2, h3, h4⟩ := h
  refine ⟨?_, ?_, ?_, ?_⟩
  · rw [conj_mul hQ, conj_mul hQ, h1]
  · rw [conj_mul hQ, conj_mul hQ, h2]
  · rw [conj_mul hQ]; exact conj_symm hQ h3
  · rw [conj_mul hQ]; exact conj_symm hQ h4

theorem conj_tryInvert {a : Matrix ι ι ℝ} (ha : Symm a) : tryInvert L (conj Q a) = conj Q (tryInvert L a) :=
  IsPinv.unique (tryInvert_pinv L (conj_symm hQ ha)) (conj_isPinv hQ (tryInvert_pinv L ha))

theorem conj_geodesicStep (a b : Matrix ι ι ℝ) (g : ℝ) :
    geodesicStep L (conj Q a) (conj Q b) g = conj Q (geodesicStep L a b g) := by
  unfold geodesicStep
  simp only [eigRecompose_eq]
  rw [conj_makePosDef hQ, conj_makePosDef hQ]
  have hs := symm_makePosDef L a (1 / 10 ^ 8)
  have e1 := conj_eigh hQ L hs (fun t => Real.sqrt (max t EPS))
  have e2 := conj_eigh hQ L hs (fun t => 1 / Real.sqrt (max t EPS))
  rw [e1, e2, conj_mul hQ, conj_mul hQ, conj_toSymmetric hQ]
  have e3 := conj_eigh hQ L (symm_toSymmetric (spec (L.eigh (makePosDef L a)).2 (fun i => 1 / Real.sqrt (max ((L.eigh (makePosDef L a)).1 i) EPS))
    * makePosDef L b * spec (L.eigh (makePosDef L a)).2 (fun i => 1 / Real.sqrt (max ((L.eigh (makePosDef L a)).1 i) EPS)))) (fun t => max t 0 ^ g)
  rw [e3, conj_mul hQ, conj_mul hQ, conj_toSymmetric hQ]

theorem orth_card : Fintype.card κ = Fintype.card ι := by
  have h1 : (Q * Qᵀ).trace = (Qᵀ * Q).trace := Matrix.trace_mul_comm _ _
  rw [hQ.left, hQ.right, Matrix.trace_one, Matrix.trace_one] at h1
  exact_mod_cast h1

theorem conj_outer (x y : ι → ℝ) : outer (Q *ᵥ x) (Q *ᵥ y) = conj Q (outer x y) := by
  have e : ∀ {ι : Type} (x y : ι → ℝ), outer x y = vecMulVec x y := fun x y => rfl
  unfold conj
  rw [e, e, Matrix.mul_vecMulVec, Matrix.vecMulVec_mul, Matrix.vecMul_transpose]

end Orth

end Precise
