import Verif.Lemmas.Spectral
import Mathlib.Analysis.SpecialFunctions.Log.Basic
import Mathlib.Analysis.SpecialFunctions.Sqrt

/-! Facts about the modelled `_linalg.py`. -/

set_option linter.all false

open Matrix

namespace Precise

open Spec

variable {ι κ : Type} [Fintype ι] [Fintype κ] [DecidableEq ι] [DecidableEq κ]

/-! ### Pseudo-inverse -/

/-- The pseudo-inverse is unique. -/
theorem IsPinv.unique {a p q : Matrix ι ι ℝ} (hp : IsPinv a p) (hq : IsPinv a q) : p = q := by
  obtain ⟨p1, p2, p3, p4⟩ := hp
  obtain ⟨q1, q2, q3, q4⟩ := hq
  have e1 : a * p = a * q := by
    calc a * p = (a * q * a) * p := by rw [q1]
      _ = (a * q) * (a * p) := by simp only [Matrix.mul_assoc]
      _ = (a * q)ᵀ * (a * p)ᵀ := by rw [q3.transpose, p3.transpose]
      _ = (a * p * a * q)ᵀ := by
          rw [← Matrix.transpose_mul]; simp only [Matrix.mul_assoc]
      _ = (a * q)ᵀ := by rw [p1]
      _ = a * q := q3.transpose
  have e2 : p * a = q * a := by
    calc p * a = p * (a * q * a) := by rw [q1]
      _ = (p * a) * (q * a) := by simp only [Matrix.mul_assoc]
      _ = (p * a)ᵀ * (q * a)ᵀ := by rw [q4.transpose, p4.transpose]
      _ = (q * (a * p * a))ᵀ := by
          rw [← Matrix.transpose_mul]; simp only [Matrix.mul_assoc]
      _ = (q * a)ᵀ := by rw [p1]
      _ = q * a := q4.transpose
  calc p = p * a * p := p2.symm
    _ = q * a * p := by rw [e2]
    _ = q * (a * p) := by rw [Matrix.mul_assoc]
    _ = q * (a * q) := by rw [e1]
    _ = q := by rw [← Matrix.mul_assoc, q2]

theorem IsPinv.symm {a p : Matrix ι ι ℝ} (ha : Symm a) (hp : IsPinv a p) : Symm p := by
  refine symm_of_transpose (IsPinv.unique (a := a) ?_ hp)
  obtain ⟨p1, p2, p3, p4⟩ := hp
  have t := ha.transpose
  refine ⟨?_, ?_, ?_, ?_⟩
  · have := congrArg Matrix.transpose p1
    simpa [Matrix.transpose_mul, t, Matrix.mul_assoc] using this
  · have := congrArg Matrix.transpose p2
    simpa [Matrix.transpose_mul, t, Matrix.mul_assoc] using this
  · have : a * pᵀ = (p * a)ᵀ := by rw [Matrix.transpose_mul, t]
    rw [this, p4.transpose]; exact p4
  · have : pᵀ * a = (a * p)ᵀ := by rw [Matrix.transpose_mul, t]
    rw [this, p3.transpose]; exact p3

theorem IsPinv.psd {a p : Matrix ι ι ℝ} (ha : PSD a) (hp : IsPinv a p) : PSD p := by
  have hs := IsPinv.symm ha.1 hp
  have e : p * a * pᵀ = p := by rw [hs.transpose]; exact hp.2.1
  rw [← e]; exact ha.congr p

theorem isPinv_spec {v : Matrix ι ι ℝ} (hv : vᵀ * v = 1) (w : ι → ℝ) : IsPinv (spec v w) (spec v fun i => (w i)⁻¹) := by
  refine ⟨?_, ?_, ?_, ?_⟩
  · rw [spec_mul hv, spec_mul hv]
    congr 1; ext i
    by_cases h : w i = 0
    · simp [h]
    · field_simp
  · rw [spec_mul hv, spec_mul hv]
    congr 1; ext i
    by_cases h : w i = 0
    · simp [h]
    · field_simp
  · rw [spec_mul hv]; exact symm_spec _ _
  · rw [spec_mul hv]; exact symm_spec _ _

/-! ### A `Lapack` exists -/

open Classical in
/-- A concrete `Lapack`, from the spectral theorem: the contract assumed of numpy is satisfiable. -/
noncomputable def Lapack.exact : Lapack where
  eigh a := if h : Symm a then Classical.choose (exists_spec h) else (fun _ => 0, 1)
  svd a := if h : Symm a then
      let e := Classical.choose (exists_spec h)
      (e.2 * diagonal (fun i => if e.1 i < 0 then -1 else 1), fun i => |e.1 i|, e.2ᵀ)
    else (1, fun _ => 0, 1)
  pinv a := if h : Symm a then
      let e := Classical.choose (exists_spec h)
      spec e.2 fun i => (e.1 i)⁻¹
    else 1
  spacing _ := 1 / 2 ^ 52
  eigh_orth a h := by simp only [dif_pos h]; exact (Classical.choose_spec (exists_spec h)).1
  eigh_eq a h := by simp only [dif_pos h]; exact (Classical.choose_spec (exists_spec h)).2
  svd_orth_u a h := by
    simp only [dif_pos h]
    have h1 := (Classical.choose_spec (exists_spec h)).1
    set e := Classical.choose (exists_spec h)
    rw [Matrix.transpose_mul, diagonal_transpose]
    have : diagonal (fun i => if e.1 i < 0 then (-1:ℝ) else 1) * e.2ᵀ * (e.2 * diagonal fun i => if e.1 i < 0 then (-1:ℝ) else 1)
        = diagonal (fun i => if e.1 i < 0 then (-1:ℝ) else 1) * (e.2ᵀ * e.2) * diagonal fun i => if e.1 i < 0 then (-1:ℝ) else 1 := by
      simp only [Matrix.mul_assoc]
    rw [this, h1, Matrix.mul_one, diagonal_mul_diagonal, ← diagonal_one]
    congr 1; ext i; split <;> norm_num
  svd_orth_v a h := by
    simp only [dif_pos h]
    have h1 := (Classical.choose_spec (exists_spec h)).1
    rw [Matrix.transpose_transpose]; exact orth_comm h1
  svd_nonneg a h i := by simp only [dif_pos h]; exact abs_nonneg _
  svd_eq a h := by
    simp only [dif_pos h]
    have h2 := (Classical.choose_spec (exists_spec h)).2
    conv_lhs => rw [h2]
    set e := Classical.choose (exists_spec h)
    rw [Matrix.mul_assoc e.2 (diagonal _) (diagonal _), diagonal_mul_diagonal]
    congr 2
    congr 1; ext i
    split
    · rename_i hn; rw [abs_of_neg hn]; ring
    · rename_i hn; rw [abs_of_nonneg (not_lt.1 hn)]; ring
  pinv_spec a h := by
    simp only [dif_pos h]
    have h1 := (Classical.choose_spec (exists_spec h)).1
    have h2 := (Classical.choose_spec (exists_spec h)).2
    conv => arg 1; rw [h2]
    exact isPinv_spec h1 _
  spacing_pos _ := by positivity

/-! ### make_pos_def -/

section Mpd
variable (L : Lapack)

theorem makePosDef_eq (a : Matrix ι ι ℝ) (eps : ℝ) :
    makePosDef L a eps = spec (L.eigh (toSymmetric a)).2 (fun i => max ((L.eigh (toSymmetric a)).1 i) eps) := by
  unfold makePosDef
  simp only []
  rw [eigRecompose_eq, toSymmetric_of_symm (symm_spec _ _)]

/-- Any diagonalization of the symmetrized input can be used. -/
theorem makePosDef_of_spec {a : Matrix ι ι ℝ} {v : Matrix ι ι ℝ} (hv : vᵀ * v = 1) {w : ι → ℝ}
    (h : toSymmetric a = spec v w) (eps : ℝ) : makePosDef L a eps = spec v (fun i => max (w i) eps) := by
  rw [makePosDef_eq]
  have hs := symm_toSymmetric a
  exact spec_unique (L.eigh_orth _ hs) hv ((L.eigh_spec hs).symm.trans h) (fun t => max t eps)

theorem symm_makePosDef (a : Matrix ι ι ℝ) (eps : ℝ) : Symm (makePosDef L a eps) := by
  rw [makePosDef_eq]; exact symm_spec _ _

theorem minEig_makePosDef (a : Matrix ι ι ℝ) (eps : ℝ) : MinEigGE (makePosDef L a eps) eps := by
  rw [makePosDef_eq]
  exact minEig_spec (L.eigh_orth _ (symm_toSymmetric a)) fun i => le_max_right _ _

theorem pd_makePosDef (a : Matrix ι ι ℝ) {eps : ℝ} (h : 0 < eps) : PD (makePosDef L a eps) :=
  (minEig_makePosDef L a eps).pd (symm_makePosDef L a eps) h

theorem makePosDef_id {a : Matrix ι ι ℝ} {eps : ℝ} (h : MinEigGE a eps) : makePosDef L a eps = toSymmetric a := by
  rw [makePosDef_eq]
  have hs := symm_toSymmetric a
  have e := L.eigh_spec hs
  have hmin : MinEigGE (spec (L.eigh (toSymmetric a)).2 (L.eigh (toSymmetric a)).1) eps := by
    rw [← e]; intro x; rw [quad_toSymmetric]; exact h x
  conv_rhs => rw [e]
  congr 1; ext i
  exact max_eq_left (eigs_ge (L.eigh_orth _ hs) hmin i)

/-- Conjugation: for an intertwiner `T`. Used for block-diagonal matrices. -/
theorem makePosDef_intertwine {a : Matrix ι ι ℝ} {b : Matrix κ κ ℝ} (ha : Symm a) (hb : Symm b)
    (T : Matrix κ ι ℝ) (h : b * T = T * a) (eps : ℝ) : makePosDef L b eps * T = T * makePosDef L a eps := by
  rw [makePosDef_eq, makePosDef_eq]
  have ha' := symm_toSymmetric a
  have hb' := symm_toSymmetric b
  refine intertwine (L.eigh_orth _ ha') (L.eigh_orth _ hb') T ?_ (fun t => max t eps)
  rw [← L.eigh_spec ha', ← L.eigh_spec hb', toSymmetric_of_symm ha, toSymmetric_of_symm hb, h]

end Mpd

/-! ### nearest_pos_def -/

section Npd
variable (L : Lapack)

/-- The starting point of the loop is the projection on the PSD cone. -/
theorem npdStart_eq (a : Matrix ι ι ℝ) : npdStart L a = makePosDef L a 0 := by
  unfold npdStart
  simp only []
  have hs := symm_toSymmetric a
  rw [makePosDef_eq]
  generalize toSymmetric a = b at *
  have hu := L.svd_orth_u b hs
  have hv := L.svd_orth_v b hs
  have hn := L.svd_nonneg b hs
  have he := L.svd_eq b hs
  have hev := L.eigh_orth b hs
  have hes := L.eigh_spec hs
  generalize L.svd b = f at *
  generalize L.eigh b = e at *
  obtain ⟨u, s, V⟩ := f
  obtain ⟨w, Q⟩ := e
  simp only at *
  have hH : Vᵀ * diagonal s * V = spec Vᵀ s := by
    unfold spec; rw [Matrix.transpose_transpose]
  have hvT : (Vᵀ)ᵀ * Vᵀ = 1 := by rw [Matrix.transpose_transpose]; exact orth_comm hv
  -- b² in both bases
  have hsq : spec Vᵀ (fun i => s i * s i) = spec Q (fun i => w i * w i) := by
    have h1 : spec Q (fun i => w i * w i) = b * b := by
      rw [← spec_mul hev, ← hes]
    have hbt : bᵀ = Vᵀ * diagonal s * uᵀ := by
      rw [he, Matrix.transpose_mul, Matrix.transpose_mul, diagonal_transpose]
      simp only [Matrix.mul_assoc]
    have h2 : b * b = bᵀ * b := by rw [hs.transpose]
    have h3 : bᵀ * b = Vᵀ * diagonal s * (uᵀ * u) * diagonal s * V := by
      rw [hbt, he]
      simp only [Matrix.mul_assoc]
    rw [h1, h2, h3, hu, Matrix.mul_one, Matrix.mul_assoc Vᵀ (diagonal _) (diagonal _), diagonal_mul_diagonal]
    unfold spec
    rw [Matrix.transpose_transpose]
  have habs : spec Vᵀ s = spec Q (fun i => |w i|) := by
    have := spec_unique hvT hev hsq Real.sqrt
    simp only [Real.sqrt_mul_self (hn _), Real.sqrt_mul_self_eq_abs, abs_of_nonneg (hn _)] at this
    exact this
  rw [hH, habs, hes, ← spec_add, ← spec_smul, toSymmetric_of_symm (symm_spec _ _)]
  congr 1; ext i
  rcases le_total 0 (w i) with h | h
  · rw [abs_of_nonneg h, max_eq_left h]; ring
  · rw [abs_of_nonpos h, max_eq_right h]; ring

theorem psd_npdStart (a : Matrix ι ι ℝ) : PSD (npdStart L a) := by
  rw [npdStart_eq]
  refine ⟨symm_makePosDef L a 0, fun x => ?_⟩
  have := minEig_makePosDef L a 0 x
  simpa using this

theorem minEig_zero {a : Matrix ι ι ℝ} (h : PSD a) (hn : ¬ PD a) : minEig L a = 0 := by
  have hs := L.eigh_spec h.1
  have ho := L.eigh_orth a h.1
  have hnn : ∀ i, 0 ≤ (L.eigh a).1 i := eigs_nonneg ho (by rw [← hs]; exact h)
  have : ∃ i, (L.eigh a).1 i = 0 := by
    by_contra hc
    push Not at hc
    refine hn ?_
    rw [hs]
    exact pd_spec ho fun i => lt_of_le_of_ne (hnn i) (Ne.symm (hc i))
  obtain ⟨i, hi⟩ := this
  unfold minEig
  refine le_antisymm ?_ ?_
  · rw [← hi]
    exact ciInf_le ⟨0, by rintro _ ⟨j, rfl⟩; exact hnn j⟩ i
  · haveI : Nonempty ι := ⟨i⟩
    exact le_ciInf hnn

theorem pd_psd_add_smul_one {a : Matrix ι ι ℝ} (h : PSD a) {c : ℝ} (hc : 0 < c) : PD (a + c • (1 : Matrix ι ι ℝ)) :=
  h.add_pd (pd_one.smul hc)

theorem nearestPosDef?_eq (a : Matrix ι ι ℝ) (fuel : ℕ) (hf : 2 ≤ fuel) :
    nearestPosDef? L fuel a = some
      (open Classical in if PD (npdStart L a) then npdStart L a
        else npdStart L a + L.spacing (frobNorm a) • (1 : Matrix ι ι ℝ)) := by
  classical
  obtain ⟨n, rfl⟩ : ∃ n, fuel = n + 2 := ⟨fuel - 2, by omega⟩
  unfold nearestPosDef? npdFinish
  by_cases h : PD (npdStart L a)
  · simp [isPositiveDef, h]
  · have h0 := minEig_zero L (psd_npdStart L a) h
    have hp : PD (npdStart L a + L.spacing (frobNorm a) • (1 : Matrix ι ι ℝ)) :=
      pd_psd_add_smul_one (psd_npdStart L a) (L.spacing_pos _)
    simp only [isPositiveDef, h, if_false]
    unfold npdLoop
    simp only [isPositiveDef, h, if_false]
    unfold npdLoop
    simp [isPositiveDef, h0, hp]

/-- Lines 47-57 from any symmetric start: one shift lifts the smallest eigenvalue to `spacing`. -/
theorem npdFinish_pd {a3 : Matrix ι ι ℝ} (hs : Symm a3) {sp : ℝ} (hsp : 0 < sp) (fuel : ℕ) (hf : 2 ≤ fuel) :
    ∃ m, npdFinish L fuel sp a3 = some m ∧ PD m ∧ ((PD a3 ∧ m = a3) ∨
      (¬ PD a3 ∧ m = a3 + (sp - minEig L a3) • (1 : Matrix ι ι ℝ))) := by
  classical
  obtain ⟨n, rfl⟩ : ∃ n, fuel = n + 2 := ⟨fuel - 2, by omega⟩
  unfold npdFinish
  by_cases h : PD a3
  · exact ⟨a3, by simp [isPositiveDef, h], h, Or.inl ⟨h, rfl⟩⟩
  · have ho := L.eigh_orth a3 hs
    have hp : PD (a3 + (sp - minEig L a3) • (1 : Matrix ι ι ℝ)) := by
      have e : a3 + (sp - minEig L a3) • (1 : Matrix ι ι ℝ)
          = spec (L.eigh a3).2 (fun i => (L.eigh a3).1 i + (sp - minEig L a3) * 1) := by
        rw [spec_add, spec_smul, spec_one ho, ← L.eigh_spec hs]
      rw [e]
      refine pd_spec ho fun i => ?_
      have : minEig L a3 ≤ (L.eigh a3).1 i := ciInf_le (Set.finite_range _).bddBelow i
      linarith
    refine ⟨_, ?_, hp, Or.inr ⟨h, rfl⟩⟩
    simp only [isPositiveDef, h, if_false]
    unfold npdLoop
    simp only [isPositiveDef, h, if_false]
    unfold npdLoop
    have e2 : -minEig L a3 * ((1 : ℕ) : ℝ) ^ 2 + sp = sp - minEig L a3 := by push_cast; ring
    rw [e2]
    simp [isPositiveDef, hp]

theorem nearestPosDef_eq (a : Matrix ι ι ℝ) :
    nearestPosDef L a =
      (open Classical in if PD (npdStart L a) then npdStart L a
        else npdStart L a + L.spacing (frobNorm a) • (1 : Matrix ι ι ℝ)) := by
  rw [nearestPosDef, nearestPosDef?_eq L a 2 le_rfl]; rfl

theorem pd_nearestPosDef (a : Matrix ι ι ℝ) : PD (nearestPosDef L a) := by
  classical
  rw [nearestPosDef_eq]
  split
  · assumption
  · exact pd_psd_add_smul_one (psd_npdStart L a) (L.spacing_pos _)

theorem nearestPosDef_id {a : Matrix ι ι ℝ} (h : PD (toSymmetric a)) : nearestPosDef L a = toSymmetric a := by
  have : npdStart L a = toSymmetric a := by
    rw [npdStart_eq]
    refine makePosDef_id L fun x => ?_
    have := h.psd.2 x
    rw [quad_toSymmetric] at this
    simpa using this
  rw [nearestPosDef_eq, this, if_pos h]

end Npd

/-! ### Frobenius projection -/

/-- Squared Frobenius distance. -/
def frobSq (a : Matrix ι ι ℝ) : ℝ := ∑ i, ∑ j, a i j * a i j

theorem frobSq_eq_trace (a : Matrix ι ι ℝ) : frobSq a = (aᵀ * a).trace := by
  unfold frobSq
  rw [Finset.sum_comm]
  simp [trace, mul_apply]

theorem frobSq_orth {v : Matrix ι ι ℝ} (hv : vᵀ * v = 1) (a : Matrix ι ι ℝ) : frobSq (vᵀ * a * v) = frobSq a := by
  rw [frobSq_eq_trace, frobSq_eq_trace]
  have : (vᵀ * a * v)ᵀ * (vᵀ * a * v) = vᵀ * (aᵀ * ((v * vᵀ) * a)) * v := by
    simp only [Matrix.transpose_mul, Matrix.transpose_transpose, Matrix.mul_assoc]
  rw [this, orth_comm hv, Matrix.one_mul, trace_mul_comm, ← Matrix.mul_assoc, orth_comm hv, Matrix.one_mul]

theorem spec_conj {v : Matrix ι ι ℝ} (hv : vᵀ * v = 1) (w : ι → ℝ) : vᵀ * spec v w * v = diagonal w := by
  unfold spec
  have : vᵀ * (v * diagonal w * vᵀ) * v = (vᵀ * v) * diagonal w * (vᵀ * v) := by simp only [Matrix.mul_assoc]
  rw [this, hv, Matrix.one_mul, Matrix.mul_one]

/-- Flooring the eigenvalues is the Frobenius projection onto the matrices with eigenvalues at least `eps`. -/
theorem makePosDef_nearest (L : Lapack) {a : Matrix ι ι ℝ} (ha : Symm a) (eps : ℝ) (x : Matrix ι ι ℝ)
    (hx : MinEigGE x eps) : frobSq (makePosDef L a eps - a) ≤ frobSq (x - a) := by
  have ho := L.eigh_orth a ha
  have he := L.eigh_spec ha
  rw [makePosDef_of_spec L ho ((toSymmetric_of_symm ha).trans he) eps]
  set v := (L.eigh a).2
  set w := (L.eigh a).1
  have d1 : vᵀ * (spec v (fun i => max (w i) eps) - a) * v = diagonal (fun i => max (w i) eps - w i) := by
    rw [Matrix.mul_sub, Matrix.sub_mul, spec_conj ho]
    conv_lhs => arg 2; rw [he]
    rw [spec_conj ho, diagonal_sub]
  have d2 : vᵀ * (x - a) * v = vᵀ * x * v - diagonal w := by
    rw [Matrix.mul_sub, Matrix.sub_mul]
    congr 1
    conv_lhs => rw [he]
    exact spec_conj ho w
  rw [← frobSq_orth ho, d1, ← frobSq_orth ho (x - a), d2]
  unfold frobSq
  refine Finset.sum_le_sum fun i _ => ?_
  have l : ∑ j, diagonal (fun i => max (w i) eps - w i) i j * diagonal (fun i => max (w i) eps - w i) i j
      = (max (w i) eps - w i) * (max (w i) eps - w i) := by
    rw [Finset.sum_eq_single i]
    · simp
    · intro j _ hj; simp [diagonal_apply_ne _ (Ne.symm hj)]
    · simp
  rw [l]
  refine le_trans ?_ (Finset.single_le_sum (f := fun j => (vᵀ * x * v - diagonal w) i j * (vᵀ * x * v - diagonal w) i j)
    (fun j _ => mul_self_nonneg _) (Finset.mem_univ i))
  -- the (i,i) entry of vᵀ x v is at least eps
  have hq : eps ≤ (vᵀ * x * v) i i := by
    have h1 := hx (fun k => v k i)
    rw [normSq_col ho, mul_one] at h1
    refine h1.trans (le_of_eq ?_)
    rw [quad_expand]
    simp only [mul_apply, transpose_apply, Finset.sum_mul]
    rw [Finset.sum_comm]
  show (max (w i) eps - w i) * (max (w i) eps - w i) ≤ ((vᵀ * x * v) i i - diagonal w i i) * ((vᵀ * x * v) i i - diagonal w i i)
  rw [diagonal_apply_eq]
  rcases le_total (w i) eps with h | h
  · rw [max_eq_right h]
    have h0 : 0 ≤ eps - w i := by linarith
    have h1 : eps - w i ≤ (vᵀ * x * v) i i - w i := by linarith
    exact mul_le_mul h1 h1 h0 (h0.trans h1)
  · rw [max_eq_left h]
    have : w i - w i = 0 := sub_self _
    rw [this, mul_zero]
    exact mul_self_nonneg _

/-! ### try_invert -/

theorem tryInvert_symm (L : Lapack) {a : Matrix ι ι ℝ} (ha : Symm a) : Symm (tryInvert L a) := by
  unfold tryInvert
  split
  · exact IsPinv.symm ha (L.pinv_spec a ha)
  · refine symm_of_transpose ?_
    rw [transpose_nonsing_inv, ha.transpose]

theorem tryInvert_pinv (L : Lapack) {a : Matrix ι ι ℝ} (ha : Symm a) : IsPinv a (tryInvert L a) := by
  unfold tryInvert
  split
  · exact L.pinv_spec a ha
  · rename_i h
    have hu : IsUnit a.det := isUnit_iff_ne_zero.2 h
    have h1 := mul_nonsing_inv a hu
    have h2 := nonsing_inv_mul a hu
    refine ⟨by rw [h1, Matrix.one_mul], by rw [h2, Matrix.one_mul], by rw [h1]; exact symm_one, by rw [h2]; exact symm_one⟩

theorem tryInvert_psd (L : Lapack) {a : Matrix ι ι ℝ} (ha : PSD a) : PSD (tryInvert L a) :=
  IsPinv.psd ha (tryInvert_pinv L ha.1)

theorem Spec.PD.det_pos {a : Matrix ι ι ℝ} (h : PD a) : 0 < a.det := by
  have hs := Lapack.exact.eigh_spec h.1
  have ho := Lapack.exact.eigh_orth a h.1
  rw [hs, det_spec ho]
  exact Finset.prod_pos fun i _ => eigs_pos ho (by rw [← hs]; exact h) i

theorem Spec.PSD.pd_of_det {a : Matrix ι ι ℝ} (h : PSD a) (hd : a.det ≠ 0) : PD a := by
  have hs := Lapack.exact.eigh_spec h.1
  have ho := Lapack.exact.eigh_orth a h.1
  rw [hs] at hd ⊢
  rw [det_spec ho] at hd
  refine pd_spec ho fun i => ?_
  refine lt_of_le_of_ne (eigs_nonneg ho (by rw [← hs]; exact h) i) (Ne.symm ?_)
  exact (Finset.prod_ne_zero_iff.1 hd) i (Finset.mem_univ i)

theorem tryInvert_of_pd (L : Lapack) {a : Matrix ι ι ℝ} (h : PD a) : tryInvert L a = a⁻¹ := by
  unfold tryInvert; rw [if_neg h.det_pos.ne']

theorem Spec.PD.inv {a : Matrix ι ι ℝ} (h : PD a) : PD a⁻¹ := by
  have h1 : PSD a⁻¹ := by rw [← tryInvert_of_pd Lapack.exact h]; exact tryInvert_psd _ h.psd
  refine h1.pd_of_det ?_
  rw [det_nonsing_inv, Ring.inverse_eq_inv']
  exact inv_ne_zero h.det_pos.ne'

/-- `log det M ≤ tr M - p` for a PD matrix, with equality only at the identity. -/
theorem log_det_le {m : Matrix ι ι ℝ} (h : PD m) :
    Real.log m.det ≤ m.trace - Fintype.card ι ∧ (Real.log m.det = m.trace - Fintype.card ι → m = 1) := by
  have hs := Lapack.exact.eigh_spec h.1
  have ho := Lapack.exact.eigh_orth m h.1
  set v := (Lapack.exact.eigh m).2
  set w := (Lapack.exact.eigh m).1
  have hw : ∀ i, 0 < w i := eigs_pos ho (by rw [← hs]; exact h)
  have hdet : Real.log m.det = ∑ i, Real.log (w i) := by
    rw [hs, det_spec ho, Real.log_prod (fun i _ => (hw i).ne')]
  have htr : m.trace - Fintype.card ι = ∑ i, (w i - 1) := by
    rw [hs, trace_spec ho, Finset.sum_sub_distrib]; simp
  rw [hdet, htr]
  have hle : ∀ i ∈ Finset.univ, Real.log (w i) ≤ w i - 1 := fun i _ => Real.log_le_sub_one_of_pos (hw i)
  refine ⟨Finset.sum_le_sum hle, fun heq => ?_⟩
  have := (Finset.sum_eq_sum_iff_of_le hle).1 heq
  have hw1 : ∀ i, w i = 1 := by
    intro i
    by_contra hne
    exact absurd (this i (Finset.mem_univ i)) (ne_of_lt (Real.log_lt_sub_one_of_pos (hw i) hne))
  rw [hs, show w = fun _ => 1 from funext hw1, spec_one ho]

/-- square root of a PD matrix -/
theorem Spec.PD.exists_sqrt {a : Matrix ι ι ℝ} (h : PD a) : ∃ r : Matrix ι ι ℝ, PD r ∧ r * r = a := by
  have hs := Lapack.exact.eigh_spec h.1
  have ho := Lapack.exact.eigh_orth a h.1
  have hw : ∀ i, 0 < (Lapack.exact.eigh a).1 i := eigs_pos ho (by rw [← hs]; exact h)
  refine ⟨spec (Lapack.exact.eigh a).2 (fun i => Real.sqrt ((Lapack.exact.eigh a).1 i)), pd_spec ho fun i => Real.sqrt_pos.2 (hw i), ?_⟩
  rw [spec_mul ho]
  conv_rhs => rw [hs]
  congr 1; ext i; exact Real.mul_self_sqrt (hw i).le

/-- Stein's inequality: `log det (P S) ≤ tr (P S) - p`, equality only when `P = S⁻¹`. -/
theorem stein {P S : Matrix ι ι ℝ} (hP : PD P) (hS : PD S) :
    Real.log P.det + Real.log S.det ≤ (P * S).trace - Fintype.card ι ∧
    (Real.log P.det + Real.log S.det = (P * S).trace - Fintype.card ι → P = S⁻¹) := by
  obtain ⟨r, hr, hrr⟩ := hS.exists_sqrt
  have hm : PD (r * P * rᵀ) := hP.congr_inj r fun x hx => by
    rw [hr.1.transpose] at hx
    have hu : IsUnit r.det := isUnit_iff_ne_zero.2 hr.det_pos.ne'
    have := congrArg (fun z => r⁻¹ *ᵥ z) hx
    simpa [mulVec_mulVec, nonsing_inv_mul r hu] using this
  have htr : (r * P * rᵀ).trace = (P * S).trace := by
    rw [hr.1.transpose, trace_mul_comm, ← Matrix.mul_assoc, hrr, trace_mul_comm]
  have hdet : Real.log (r * P * rᵀ).det = Real.log P.det + Real.log S.det := by
    rw [← hrr, det_mul, det_mul, det_transpose, det_mul, ← Real.log_mul hP.det_pos.ne' (mul_pos hr.det_pos hr.det_pos).ne']
    congr 1; ring
  obtain ⟨h1, h2⟩ := log_det_le hm
  rw [htr, hdet] at h1 h2
  refine ⟨h1, fun he => ?_⟩
  have h3 := h2 he
  rw [hr.1.transpose] at h3
  have hu : IsUnit r.det := isUnit_iff_ne_zero.2 hr.det_pos.ne'
  refine (inv_eq_right_inv ?_).symm
  rw [← hrr]
  have : r * r * P = r * (r * P * r) * r⁻¹ := by
    rw [Matrix.mul_assoc r (r * P * r) r⁻¹, Matrix.mul_assoc (r * P) r r⁻¹, mul_nonsing_inv r hu, Matrix.mul_one,
      Matrix.mul_assoc]
  rw [this, h3, Matrix.mul_one, mul_nonsing_inv r hu]

end Precise
