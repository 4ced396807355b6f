import Verif.Props.TheoryBlocks
import Mathlib.LinearAlgebra.Matrix.SchurComplement

/-!
# C72: the Schur likelihood as a Gaussian score: `schur_operator`, `snr` and `_kl` of `research/schur_godambe.py`
-/

set_option linter.all false

open Matrix

namespace Precise.Theory

open Precise.Spec

variable {p : ℕ}

/-! ## One block -/

theorem blockT_eq (M : Matrix (Fin p) (Fin p) ℝ) (g : ℝ) (a s : ℕ) : blockT M g a s = selP p a s - effG M g a s * selQ p a := by
  ext k j
  unfold blockT effG selP selQ
  rw [Matrix.sub_apply, mul_apply]
  simp only [Matrix.of_apply, submatrix_apply, id_eq, Matrix.one_apply, Matrix.smul_apply, smul_eq_mul, mul_ite, mul_one, mul_zero]
  by_cases hj : j.1 < a
  · rw [dif_pos hj, if_neg (by rintro rfl; have := k.2.1; omega), Finset.sum_eq_single ⟨j, hj⟩]
    · simp
    · intro b _ hb; rw [if_neg]; rintro rfl; exact hb rfl
    · simp
  · rw [dif_neg hj, Finset.sum_eq_zero]
    · simp
    · intro b _; rw [if_neg]; rintro rfl; exact hj b.2

theorem symm_dampS {M : Matrix (Fin p) (Fin p) ℝ} (hM : Symm M) (g : ℝ) (a s : ℕ) : Symm (dampS M g a s) := by
  rw [dampS_eq]
  refine (symm_KK hM a s).sub (Symm.smul g ?_)
  have hi : Symm (subWW M a)⁻¹ := symm_of_transpose (by rw [transpose_nonsing_inv, (symm_WW hM a).transpose])
  rw [← Matrix.mul_assoc]
  exact hi.congr _

theorem dampS_decomp {M : Matrix (Fin p) (Fin p) ℝ} (hM : PD M) (g : ℝ) (a s : ℕ) :
    dampS M g a s = condCov M a s + (1 - g) • (regression M a s * subWW M a * (regression M a s)ᵀ) := by
  have hd := (pd_WW hM a).det_pos.ne'
  have h1 : regression M a s * subWW M a = subKW M a s := regression_normal s hd
  have h2 : (regression M a s)ᵀ = (subWW M a)⁻¹ * (subKW M a s)ᵀ := by
    rw [regression_eq, transpose_mul, transpose_nonsing_inv, (symm_WW hM.1 a).transpose]
  rw [dampS_eq, condCov_eq hM.1, h1, h2, regression_eq, Matrix.mul_assoc, sub_smul, one_smul]
  abel

/-- For a positive definite candidate and `gamma` in [0, 1] every damped conditional covariance is positive definite. -/
theorem pd_dampS {M : Matrix (Fin p) (Fin p) ℝ} (hM : PD M) {g : ℝ} (hg : g ≤ 1) (a s : ℕ) : PD (dampS M g a s) := by
  rw [dampS_decomp hM]
  exact (pd_condCov hM a s).add_psd (((pd_WW hM a).psd.congr _).smul (by linarith))

theorem dampedCov_eq (M : Matrix (Fin p) (Fin p) ℝ) (g : ℝ) (a s : ℕ) : dampedCov M g a s = dampS M g a s := by
  rw [dampS_eq, ← Matrix.mul_assoc]; rfl

theorem proper_iff (M : Matrix (Fin p) (Fin p) ℝ) (g : ℝ) (sizes : List ℕ) :
    Proper M g sizes ↔ ∀ b ∈ blocksFrom 0 sizes, PD (dampS M g b.1 b.2) := by
  unfold Proper; simp only [dampedCov_eq]

theorem blockTerm_pd (L : Lapack) {T M : Matrix (Fin p) (Fin p) ℝ} (hT : Symm T) (g : ℝ) (a s : ℕ) (hP : PD (dampS M g a s)) :
    blockTerm L T M g a s = ((-(1 / 2) * (Real.log (dampS M g a s).det +
      ((blockT M g a s)ᵀ * ((dampS M g a s)⁻¹ * blockT M g a s) * T).trace) : ℝ) : WithBot ℝ) := by
  have ho := L.eigh_orth _ hP.1
  have hs := L.eigh_spec hP.1
  have hpos : ∀ i, 0 < (L.eigh (dampS M g a s)).1 i := fun i => eigs_pos ho (hs ▸ hP) i
  have hdet : ∑ i, Real.log ((L.eigh (dampS M g a s)).1 i) = Real.log (dampS M g a s).det := by
    conv_rhs => rw [hs, det_spec ho]
    rw [Real.log_prod fun i _ => (hpos i).ne']
  unfold blockTerm
  simp only [toSymmetric_of_symm hP.1]
  rw [if_neg (by push Not; exact hpos), hdet, residM_eq, ← resid_cov hT, ← blockT_eq]
  have e : ((dampS M g a s)⁻¹ * (blockT M g a s * T * (blockT M g a s)ᵀ)).trace =
      ((blockT M g a s)ᵀ * ((dampS M g a s)⁻¹ * blockT M g a s) * T).trace := by
    rw [← Matrix.mul_assoc, trace_mul_comm]; simp only [Matrix.mul_assoc]
  rw [e]

/-! ## The sum over the blocks -/

variable (M : Matrix (Fin p) (Fin p) ℝ) (g : ℝ)

theorem operatorFrom_cons {a s : ℕ} (rest : List ℕ) (hP : PD (dampS M g a s)) :
    operatorFrom M g a (s :: rest) = ((blockT M g a s)ᵀ * ((dampS M g a s)⁻¹ * blockT M g a s) + (operatorFrom M g (a + s) rest).1,
      Real.log (dampS M g a s).det + (operatorFrom M g (a + s) rest).2) := by
  rw [operatorFrom]
  simp only [toSymmetric_of_symm hP.1, abs_of_pos hP.det_pos]

theorem psd_term {a s : ℕ} (hP : PD (dampS M g a s)) : PSD ((blockT M g a s)ᵀ * ((dampS M g a s)⁻¹ * blockT M g a s)) := by
  have := hP.inv.psd.congr (blockT M g a s)ᵀ
  rwa [transpose_transpose, Matrix.mul_assoc] at this

theorem quad_term {a s : ℕ} (x : Fin p → ℝ) : quad ((blockT M g a s)ᵀ * ((dampS M g a s)⁻¹ * blockT M g a s)) x =
    quad (dampS M g a s)⁻¹ (blockT M g a s *ᵥ x) := by
  have := quad_congr (blockT M g a s)ᵀ (dampS M g a s)⁻¹ x
  rwa [transpose_transpose, Matrix.mul_assoc] at this

theorem operatorFrom_psd (rest : List ℕ) : ∀ a, (∀ b ∈ blocksFrom a rest, PD (dampS M g b.1 b.2)) → PSD (operatorFrom M g a rest).1 := by
  induction rest with
  | nil => intro a _; exact psd_zero
  | cons s rest ih =>
    intro a h
    have hP := h (a, s) (by simp [blocksFrom])
    rw [operatorFrom_cons M g rest hP]
    exact (psd_term M g hP).add (ih _ fun b hb => h b (by simp [blocksFrom, hb]))

theorem loglik_operator (L : Lapack) {T : Matrix (Fin p) (Fin p) ℝ} (hT : Symm T) (rest : List ℕ) : ∀ a,
    (∀ b ∈ blocksFrom a rest, PD (dampS M g b.1 b.2)) →
    loglikFrom L T M g a rest = ((-(1 / 2) * ((operatorFrom M g a rest).2 + ((operatorFrom M g a rest).1 * T).trace) : ℝ) : WithBot ℝ) := by
  induction rest with
  | nil => intro a _; simp [loglikFrom, operatorFrom]
  | cons s rest ih =>
    intro a h
    have hP := h (a, s) (by simp [blocksFrom])
    rw [loglikFrom, ih _ fun b hb => h b (by simp [blocksFrom, hb]), blockTerm_pd L hT g a s hP, operatorFrom_cons M g rest hP,
      ← WithBot.coe_add, Matrix.add_mul, trace_add]
    congr 1; simp only; ring

/-! ### log det W = -Ld -/

/-- the identity on the variables from `a` on -/
noncomputable def tailId (p a : ℕ) : Matrix (Fin p) (Fin p) ℝ := diagonal fun i => if a ≤ i.1 then 1 else 0

theorem tail_step (a s : ℕ) : tailId p a = (selP p a s)ᵀ * selP p a s + tailId p (a + s) := by
  ext i j
  rw [Matrix.add_apply, tailId, tailId, diagonal_apply, diagonal_apply, mul_apply]
  simp only [selP, transpose_apply, submatrix_apply, id_eq, Matrix.one_apply]
  by_cases hi : a ≤ i.1 ∧ i.1 < a + s
  · rw [Finset.sum_eq_single ⟨i, hi⟩]
    · have h1 : ¬ a + s ≤ i.1 := by omega
      simp [hi.1, h1]
    · intro b _ hb; rw [if_neg, zero_mul]; intro h; exact hb (Subtype.ext h)
    · simp
  · rw [Finset.sum_eq_zero]
    · by_cases h : a ≤ i.1
      · have : a + s ≤ i.1 := by omega
        simp [h, this]
      · have : ¬ a + s ≤ i.1 := by omega
        simp [h, this]
    · intro b _; rw [if_neg, zero_mul]; rintro rfl; exact hi b.2

theorem tail_mul_Pt (a s : ℕ) : tailId p (a + s) * (selP p a s)ᵀ = 0 := by
  ext i k
  rw [tailId, diagonal_mul, transpose_apply, selP, submatrix_apply, Matrix.one_apply, Matrix.zero_apply]
  by_cases h : k.1 = i
  · have := k.2.2
    rw [h] at this
    have : ¬ a + s ≤ i.1 := by omega
    simp [this]
  · simp [h]

theorem tailId_symm (a : ℕ) : (tailId p a)ᵀ = tailId p a := by simp [tailId]

/-- `X` has zero columns from `a` on -/
def SuppCol (a : ℕ) (X : Matrix (Fin p) (Fin p) ℝ) : Prop := ∀ i j : Fin p, a ≤ j.1 → X i j = 0

theorem SuppCol.mul_Pt {a : ℕ} (s : ℕ) {X : Matrix (Fin p) (Fin p) ℝ} (h : SuppCol a X) : X * (selP p a s)ᵀ = 0 := by
  ext i k
  unfold selP
  rw [mul_sel, submatrix_apply]
  exact h _ _ k.2.1

theorem blockT_supp (a s : ℕ) (k : Blk p a s) (j : Fin p) (hj : a + s ≤ j.1) : blockT M g a s k j = 0 := by
  unfold blockT
  rw [Matrix.of_apply, dif_neg (by omega), if_neg]
  rintro rfl
  have := k.2.2
  omega

theorem det_step {a s : ℕ} {X : Matrix (Fin p) (Fin p) ℝ} (hX : SuppCol a X) (hXs : Symm X) (S : Matrix (Blk p a s) (Blk p a s) ℝ) :
    (X + (blockT M g a s)ᵀ * (S * blockT M g a s) + tailId p (a + s)).det = (X + tailId p a).det * S.det := by
  set P := selP p a s with hP
  set Q := selQ p a
  set G := effG M g a s
  set F := tailId p (a + s) with hF
  set U : Matrix (Fin p) (Fin p) ℝ := 1 - Pᵀ * (G * Q) with hU
  have hXP : X * Pᵀ = 0 := hX.mul_Pt s
  have hFP : F * Pᵀ = 0 := tail_mul_Pt a s
  have hPF : P * F = 0 := by
    have := congrArg Matrix.transpose hFP
    rwa [transpose_mul, transpose_transpose, hF, tailId_symm, transpose_zero] at this
  have hPX : P * X = 0 := by
    have := congrArg Matrix.transpose hXP
    rwa [transpose_mul, transpose_transpose, hXs.transpose, transpose_zero] at this
  have hPU : P * U = blockT M g a s := by
    rw [blockT_eq, hU, Matrix.mul_sub, Matrix.mul_one, ← Matrix.mul_assoc, PPt, Matrix.one_mul]
  have hXU : X * U = X := by rw [hU, Matrix.mul_sub, ← Matrix.mul_assoc, hXP]; simp
  have hFU : F * U = F := by rw [hU, Matrix.mul_sub, ← Matrix.mul_assoc, hFP]; simp
  have hUX : Uᵀ * X = X := by
    have := congrArg Matrix.transpose hXU
    rwa [transpose_mul, hXs.transpose] at this
  have hUF : Uᵀ * F = F := by
    have := congrArg Matrix.transpose hFU
    rwa [transpose_mul, hF, tailId_symm] at this
  have hdetU : U.det = 1 := by
    rw [hU, sub_eq_add_neg, ← Matrix.mul_neg, det_one_add_mul_comm, Matrix.neg_mul, Matrix.mul_assoc, QPt]; simp
  have e1 : X + (blockT M g a s)ᵀ * (S * blockT M g a s) + F = Uᵀ * ((X + tailId p a) * (1 + Pᵀ * ((S - 1) * P))) * U := by
    have h0 : (X + tailId p a) * (1 + Pᵀ * ((S - 1) * P)) = X + Pᵀ * (S * P) + F := by
      rw [tail_step a s]
      simp only [Matrix.add_mul, Matrix.mul_add, Matrix.mul_one]
      rw [← Matrix.mul_assoc X, hXP, ← Matrix.mul_assoc F, hFP, Matrix.mul_assoc Pᵀ P, ← Matrix.mul_assoc P Pᵀ, PPt,
        Matrix.one_mul, Matrix.zero_mul, Matrix.sub_mul, Matrix.one_mul, Matrix.mul_sub, ← hP, ← hF]
      abel
    rw [h0, ← hPU]
    simp only [Matrix.mul_add, Matrix.add_mul, transpose_mul]
    rw [hUX, hXU, hUF, hFU]
    simp only [Matrix.mul_assoc]
  rw [e1, det_mul, det_mul, det_mul, det_transpose, hdetU, det_one_add_mul_comm, Matrix.mul_assoc, PPt]
  simp

theorem det_operator (rest : List ℕ) : ∀ (a : ℕ) (X : Matrix (Fin p) (Fin p) ℝ), SuppCol a X → Symm X →
    (∀ b ∈ blocksFrom a rest, PD (dampS M g b.1 b.2)) →
    ∃ d : ℝ, 0 < d ∧ (X + (operatorFrom M g a rest).1 + tailId p (a + rest.sum)).det = (X + tailId p a).det * d ∧
      Real.log d = -(operatorFrom M g a rest).2 := by
  induction rest with
  | nil => intro a X _ _ _; exact ⟨1, one_pos, by simp [operatorFrom], by simp [operatorFrom]⟩
  | cons s rest ih =>
    intro a X hX hXs h
    have hP := h (a, s) (by simp [blocksFrom])
    have hst : SuppCol (a + s) (X + (blockT M g a s)ᵀ * ((dampS M g a s)⁻¹ * blockT M g a s)) := by
      intro i j hj
      rw [Matrix.add_apply, hX i j (by omega), mul_apply, zero_add]
      refine Finset.sum_eq_zero fun k _ => ?_
      rw [mul_apply, Finset.sum_eq_zero, mul_zero]
      intro l _
      rw [blockT_supp M g a s l j hj, mul_zero]
    obtain ⟨d, hd, e1, e2⟩ := ih (a + s) _ hst (hXs.add (psd_term M g hP).1) fun b hb => h b (by simp [blocksFrom, hb])
    rw [det_step M g hX hXs] at e1
    refine ⟨(dampS M g a s)⁻¹.det * d, mul_pos hP.inv.det_pos hd, ?_, ?_⟩
    · rw [operatorFrom_cons M g rest hP, List.sum_cons, ← add_assoc a, ← mul_assoc, ← e1, ← add_assoc]
    · rw [operatorFrom_cons M g rest hP, Real.log_mul hP.inv.det_pos.ne' hd.ne', e2, det_nonsing_inv, Ring.inverse_eq_inv', Real.log_inv]
      simp only; ring

theorem tailId_zero : tailId p 0 = 1 := by simp [tailId]
theorem tailId_all : tailId p p = 0 := by
  ext i j
  have : ¬ p ≤ i.1 := by have := i.2; omega
  simp [tailId, diagonal_apply, this]

theorem operator_det (sizes : List ℕ) (hp : sizes.sum = p) (h : Proper M g sizes) :
    0 < (operatorFrom M g 0 sizes).1.det ∧ Real.log (operatorFrom M g 0 sizes).1.det = -(operatorFrom M g 0 sizes).2 := by
  obtain ⟨d, hd, e1, e2⟩ := det_operator M g sizes 0 0 (fun i j _ => rfl) symm_zero ((proper_iff _ _ _).1 h)
  rw [zero_add, zero_add, hp, tailId_all, add_zero, zero_add, tailId_zero, det_one, one_mul] at e1
  rw [e1]
  exact ⟨hd, e2⟩

theorem schurOperator_eq (sizes : List ℕ) (h : Proper M g sizes) : schurOperator M sizes g = operatorFrom M g 0 sizes := by
  unfold schurOperator
  rw [toSymmetric_of_symm (operatorFrom_psd M g sizes 0 ((proper_iff _ _ _).1 h)).1]

theorem pd_of_psd_det {ι : Type} [Fintype ι] [DecidableEq ι] {A : Matrix ι ι ℝ} (h : PSD A) (hd : A.det ≠ 0) : PD A := by
  refine ⟨h.1, fun x hx => lt_of_le_of_ne (h.2 x) fun h0 => hx ?_⟩
  have := (h.quad_eq_zero_iff x).1 h0.symm
  have := congrArg (fun z => A⁻¹ *ᵥ z) this
  simpa [mulVec_mulVec, nonsing_inv_mul A (isUnit_iff_ne_zero.2 hd)] using this

/-! ## The theorems -/

variable {M g}

/-- C72: with a positive definite candidate and `gamma <= 1` no block fails: the score is never `-inf`. -/
theorem C72_proper (sizes : List ℕ) (hM : PD M) (hg : g ≤ 1) : Proper M g sizes :=
  (proper_iff _ _ _).2 fun b _ => pd_dampS hM hg b.1 b.2

/-- C72: what `schur_operator` returns, without matrices: `Ld` adds the log-determinants of the damped conditional covariances,
and `x' W x` adds the squared standardized prediction errors `x_K - gamma B x_W` of the blocks. -/
theorem C72_law (sizes : List ℕ) (h : Proper M g sizes) (x : Fin p → ℝ) :
    (schurOperator M sizes g).2 = ((blocksFrom 0 sizes).map fun b => Real.log (dampedCov M g b.1 b.2).det).sum ∧
    quad (schurOperator M sizes g).1 x = ((blocksFrom 0 sizes).map fun b =>
      quad (dampedCov M g b.1 b.2)⁻¹ fun k => x k.1 - g * (regression M b.1 b.2 *ᵥ fun j => x j.1) k).sum := by
  rw [schurOperator_eq M g sizes h]
  rw [proper_iff] at h
  simp only [dampedCov_eq]
  revert h
  generalize (0:ℕ) = a
  induction sizes generalizing a with
  | nil => intro _; simp [operatorFrom, blocksFrom]
  | cons s rest ih =>
    intro h
    have hP := h (a, s) (by simp [blocksFrom])
    obtain ⟨e1, e2⟩ := ih (a + s) fun b hb => h b (by simp [blocksFrom, hb])
    rw [operatorFrom_cons M g rest hP]
    simp only [blocksFrom, List.map_cons, List.sum_cons]
    refine ⟨by rw [e1], ?_⟩
    rw [quad_add, e2, quad_term]
    congr 2
    funext k
    rw [blockT_eq, sub_mulVec, ← mulVec_mulVec, Pi.sub_apply, effG, smul_mulVec, Pi.smul_apply, smul_eq_mul]
    have e3 : selQ p a *ᵥ x = fun j => x j.1 := by
      funext j; simp [selQ, mulVec, dotProduct, Matrix.one_apply]
    have e4 : (selP p a s *ᵥ x) k = x k.1 := by
      simp [selP, mulVec, dotProduct, Matrix.one_apply]
    rw [e3, e4, regression_eq]

/-- C72: the judge's operator is a genuine precision matrix and `Ld` is its normalising constant: `W` is positive definite and
`Ld = -log det W`, so `-(Ld + x'Wx)/2` is the log-density of a centred Gaussian with covariance `W⁻¹` (up to `p/2 log 2 pi`). -/
theorem C72_gaussian (sizes : List ℕ) (hp : sizes.sum = p) (h : Proper M g sizes) :
    PD (schurOperator M sizes g).1 ∧ (schurOperator M sizes g).2 = -Real.log (schurOperator M sizes g).1.det := by
  rw [schurOperator_eq M g sizes h]
  obtain ⟨hd, hl⟩ := operator_det M g sizes hp h
  exact ⟨pd_of_psd_det (operatorFrom_psd M g sizes 0 ((proper_iff _ _ _).1 h)) hd.ne', by rw [hl]; ring⟩

/-- C72: `expected_schur_loglik` is the expected score of that Gaussian: `-(Ld + tr(W truth))/2`. -/
theorem C72_expected (L : Lapack) (T : Matrix (Fin p) (Fin p) ℝ) (hT : Symm T) (sizes : List ℕ) (h : Proper M g sizes) :
    expectedSchurLoglik L T M sizes g =
      ((-(1 / 2) * ((schurOperator M sizes g).2 + ((schurOperator M sizes g).1 * T).trace) : ℝ) : WithBot ℝ) := by
  rw [schurOperator_eq M g sizes h]
  exact loglik_operator M g L hT sizes 0 ((proper_iff _ _ _).1 h)

/-! ### gamma = 1 -/

/-- `X` solves `M X = M` on the first `a` rows and is zero from row `a` on -/
def Solves (M : Matrix (Fin p) (Fin p) ℝ) (a : ℕ) (X : Matrix (Fin p) (Fin p) ℝ) : Prop :=
  selQ p a * (M * X) = selQ p a * M ∧ ∀ i j : Fin p, a ≤ i.1 → X i j = 0

theorem supp_rows {a : ℕ} {X : Matrix (Fin p) (Fin p) ℝ} (h : ∀ i j : Fin p, a ≤ i.1 → X i j = 0) : X = (selQ p a)ᵀ * (selQ p a * X) := by
  ext i j
  rw [mul_apply]
  simp only [selQ, transpose_apply, submatrix_apply, id_eq, sel_mul, Matrix.one_apply]
  by_cases hi : i.1 < a
  · rw [Finset.sum_eq_single ⟨i, hi⟩]
    · simp
    · intro b _ hb; rw [if_neg, zero_mul]; intro h; exact hb (Subtype.ext h)
    · simp
  · rw [h i j (by omega), Finset.sum_eq_zero]
    intro b _; rw [if_neg, zero_mul]; rintro rfl; exact hi b.2

theorem solves_step (hM : PD M) {a : ℕ} (s : ℕ) {X : Matrix (Fin p) (Fin p) ℝ} (h : Solves M a X) :
    Solves M (a + s) (X + (blockT M 1 a s)ᵀ * ((dampS M 1 a s)⁻¹ * blockT M 1 a s) * M) := by
  obtain ⟨h1, h2⟩ := h
  have hd := (pd_WW hM a).det_pos.ne'
  have hS := pd_dampS hM (le_refl 1) a s
  have hR : blockT M 1 a s = selP p a s - regression M a s * selQ p a := by rw [blockT_eq, effG, one_smul, regression_eq]
  have hRQ : blockT M 1 a s * (M * (selQ p a)ᵀ) = 0 := by
    rw [hR, Matrix.sub_mul, ← Matrix.mul_assoc, PTQ, Matrix.mul_assoc, ← Matrix.mul_assoc (selQ p a), QTQ, regression_normal s hd, sub_self]
  have hQR : selQ p a * (M * (blockT M 1 a s)ᵀ) = 0 := by
    have := congrArg Matrix.transpose hRQ
    rw [transpose_mul, transpose_mul, hM.1.transpose, transpose_transpose, transpose_zero] at this
    rwa [Matrix.mul_assoc] at this
  have hRR : blockT M 1 a s * (M * (blockT M 1 a s)ᵀ) = dampS M 1 a s := by
    have hPeq : selP p a s = blockT M 1 a s + regression M a s * selQ p a := by rw [hR]; abel
    have e1 : blockT M 1 a s * (M * (blockT M 1 a s)ᵀ) = blockT M 1 a s * (M * (selP p a s)ᵀ) := by
      rw [hPeq, transpose_add, Matrix.mul_add, Matrix.mul_add, transpose_mul, ← Matrix.mul_assoc M, ← Matrix.mul_assoc _ (M * _), hRQ, Matrix.zero_mul, add_zero]
    rw [e1, hR, Matrix.sub_mul, ← Matrix.mul_assoc, PTP, Matrix.mul_assoc, ← Matrix.mul_assoc (selQ p a), QTP hM.1, dampS_decomp hM, condCov_eq hM.1, sub_self, zero_smul, add_zero, regression_eq]
  set W := (blockT M 1 a s)ᵀ * ((dampS M 1 a s)⁻¹ * blockT M 1 a s) * M with hW
  have hQW : selQ p a * (M * W) = 0 := by
    rw [hW, Matrix.mul_assoc, ← Matrix.mul_assoc M, ← Matrix.mul_assoc (selQ p a), hQR, Matrix.zero_mul]
  have hRW : blockT M 1 a s * (M * W) = blockT M 1 a s * M := by
    rw [hW, Matrix.mul_assoc, ← Matrix.mul_assoc M, ← Matrix.mul_assoc (blockT M 1 a s), hRR, ← Matrix.mul_assoc, ← Matrix.mul_assoc,
      mul_nonsing_inv _ (isUnit_iff_ne_zero.2 hS.det_pos.ne'), Matrix.one_mul]
  have hRX : blockT M 1 a s * (M * X) = 0 := by
    rw [supp_rows h2, ← Matrix.mul_assoc M, ← Matrix.mul_assoc, hRQ, Matrix.zero_mul]
  have hQ' : selQ p a * (M * (X + W)) = selQ p a * M := by rw [Matrix.mul_add, Matrix.mul_add, h1, hQW, add_zero]
  have hP' : selP p a s * (M * (X + W)) = selP p a s * M := by
    have hPeq : selP p a s = blockT M 1 a s + regression M a s * selQ p a := by rw [hR]; abel
    rw [hPeq, Matrix.add_mul, Matrix.add_mul, Matrix.mul_assoc, hQ', Matrix.mul_add, Matrix.mul_add, hRX, hRW, zero_add, Matrix.mul_assoc]
  refine ⟨?_, ?_⟩
  · ext i j
    by_cases hi : i.1.1 < a
    · have := congrFun (congrFun hQ' ⟨i.1, hi⟩) j
      simpa [selQ, sel_mul] using this
    · have := congrFun (congrFun hP' ⟨i.1, by omega, i.2⟩) j
      simpa [selP, selQ, sel_mul] using this
  · intro i j hi
    rw [Matrix.add_apply, h2 i j (by omega), zero_add, hW, Matrix.mul_assoc, mul_apply]
    refine Finset.sum_eq_zero fun k _ => ?_
    rw [transpose_apply, blockT_supp M 1 a s k i hi, zero_mul]

theorem solves_all (hM : PD M) (rest : List ℕ) : ∀ (a : ℕ) (X : Matrix (Fin p) (Fin p) ℝ), Solves M a X →
    Solves M (a + rest.sum) (X + (operatorFrom M 1 a rest).1 * M) := by
  induction rest with
  | nil => intro a X h; simpa [operatorFrom] using h
  | cons s rest ih =>
    intro a X h
    have := ih (a + s) _ (solves_step hM s h)
    rw [operatorFrom_cons M 1 rest (pd_dampS hM (le_refl 1) a s), List.sum_cons, ← add_assoc a, Matrix.add_mul, ← add_assoc]
    exact this

/-- C72: at `gamma = 1` the judge is the full Gaussian likelihood: `W` is the inverse of the candidate and `Ld` its log-determinant,
for every ordered partition. -/
theorem C72_gamma_one (sizes : List ℕ) (hp : sizes.sum = p) (hM : PD M) :
    (schurOperator M sizes 1).1 = M⁻¹ ∧ (schurOperator M sizes 1).2 = Real.log M.det := by
  have h := C72_proper sizes hM (le_refl 1)
  have hW : (schurOperator M sizes 1).1 = M⁻¹ := by
    rw [schurOperator_eq M 1 sizes h]
    have := (solves_all hM sizes 0 0 ⟨by ext i; exact absurd i.2 (by omega), fun _ _ _ => rfl⟩).1
    rw [zero_add, zero_add, hp] at this
    have hX : M * ((operatorFrom M 1 0 sizes).1 * M) = M := by
      ext i j
      have := congrFun (congrFun this ⟨i, i.2⟩) j
      simpa [selQ, sel_mul] using this
    have hu : IsUnit M.det := isUnit_iff_ne_zero.2 hM.det_pos.ne'
    have h1 : (operatorFrom M 1 0 sizes).1 * M = 1 := by
      have := congrArg (fun z => M⁻¹ * z) hX
      simpa [← Matrix.mul_assoc, nonsing_inv_mul M hu] using this
    exact (inv_eq_left_inv h1).symm
  refine ⟨hW, ?_⟩
  rw [(C72_gaussian sizes hp h).2, hW, det_nonsing_inv, Ring.inverse_eq_inv', Real.log_inv, neg_neg]

/-- C72: at `gamma = 0` the judge sees only the diagonal blocks: two candidates with the same diagonal blocks get the same `W` and `Ld`. -/
theorem C72_gamma_zero (N : Matrix (Fin p) (Fin p) ℝ) (sizes : List ℕ)
    (hb : ∀ b ∈ blocksFrom 0 sizes, ∀ i j : Fin p, b.1 ≤ i.1 → i.1 < b.1 + b.2 → b.1 ≤ j.1 → j.1 < b.1 + b.2 → M i j = N i j) :
    schurOperator M sizes 0 = schurOperator N sizes 0 := by
  have : operatorFrom M 0 0 sizes = operatorFrom N 0 0 sizes := by
    revert hb
    generalize (0:ℕ) = a
    induction sizes generalizing a with
    | nil => intro _; rfl
    | cons s rest ih =>
      intro hb
      have e0 : ∀ K : Matrix (Fin p) (Fin p) ℝ, dampS K 0 a s = subKK K a s := fun K => by rw [dampS_eq]; simp
      have e1 : dampS M 0 a s = dampS N 0 a s := by
        rw [e0, e0]; ext i j; exact hb (a, s) (by simp [blocksFrom]) _ _ i.2.1 i.2.2 j.2.1 j.2.2
      have e2 : blockT M 0 a s = blockT N 0 a s := by rw [blockT_eq, blockT_eq]; simp [effG]
      have e3 := ih (a + s) fun b hb' => hb b (by simp [blocksFrom, hb'])
      simp only [operatorFrom, e1, e2, e3]
  unfold schurOperator
  rw [this]

/-! ### `snr` and `_kl` -/

/-- C72: `mu` of `snr` is the difference of the two expected scores. -/
theorem C72_mu (L : Lapack) (A B T : Matrix (Fin p) (Fin p) ℝ) (hT : Symm T) (sizes : List ℕ) (hA : Proper A g sizes) (hB : Proper B g sizes) :
    ∃ u v : ℝ, expectedSchurLoglik L T A sizes g = (u : WithBot ℝ) ∧ expectedSchurLoglik L T B sizes g = (v : WithBot ℝ) ∧
      snrMu A B T sizes g = u - v := by
  refine ⟨_, _, C72_expected L T hT sizes hA, C72_expected L T hT sizes hB, ?_⟩
  rw [snrMu, Matrix.sub_mul, trace_sub]; ring

theorem trace_sq_eq {ι : Type} [Fintype ι] [DecidableEq ι] {D T : Matrix ι ι ℝ} (hD : Symm D) (hT : PD T) :
    0 ≤ (D * T * (D * T)).trace ∧ ((D * T * (D * T)).trace = 0 ↔ D = 0) := by
  obtain ⟨r, hr, hrr⟩ := hT.exists_sqrt
  have ht : (D * T * (D * T)).trace = ∑ i, ∑ j, (r * D * r) i j * (r * D * r) i j := by
    have hs : Symm (r * D * r) := by have := hD.congr r; rwa [hr.1.transpose] at this
    have e : (D * T * (D * T)).trace = (r * D * r * (r * D * r)).trace := by
      rw [← hrr, ← Matrix.mul_assoc, ← Matrix.mul_assoc, trace_mul_comm]; simp only [Matrix.mul_assoc]
    rw [e, trace]
    refine Finset.sum_congr rfl fun i _ => ?_
    rw [diag_apply, mul_apply]
    exact Finset.sum_congr rfl fun j _ => by rw [hs j i]
  rw [ht]
  have hnn : ∀ i, 0 ≤ ∑ j, (r * D * r) i j * (r * D * r) i j := fun i => Finset.sum_nonneg fun j _ => mul_self_nonneg _
  refine ⟨Finset.sum_nonneg fun i _ => hnn i, fun h => ?_, fun h => by simp [h]⟩
  have hz : r * D * r = 0 := by
    ext i j
    have h1 := (Finset.sum_eq_zero_iff_of_nonneg fun i _ => hnn i).1 h i (Finset.mem_univ i)
    have h2 := (Finset.sum_eq_zero_iff_of_nonneg fun j _ => mul_self_nonneg _).1 h1 j (Finset.mem_univ j)
    exact mul_self_eq_zero.1 h2
  have hu : IsUnit r.det := isUnit_iff_ne_zero.2 hr.det_pos.ne'
  calc D = r⁻¹ * (r * D * r) * r⁻¹ := by
        rw [Matrix.mul_assoc r, ← Matrix.mul_assoc r⁻¹, nonsing_inv_mul r hu, Matrix.one_mul, Matrix.mul_assoc, mul_nonsing_inv r hu, Matrix.mul_one]
    _ = 0 := by rw [hz]; simp

/-- C72: `var` of `snr` is never negative, and it is zero exactly when the judge cannot tell the two candidates apart
(same operator; then the score gap is zero for every observation). -/
theorem C72_var (A B T : Matrix (Fin p) (Fin p) ℝ) (hT : PD T) (sizes : List ℕ) (hp : sizes.sum = p) (hA : Proper A g sizes) (hB : Proper B g sizes) :
    0 ≤ snrVar A B T sizes g ∧ (snrVar A B T sizes g = 0 ↔ schurOperator A sizes g = schurOperator B sizes g) := by
  have gA := C72_gaussian sizes hp hA
  have gB := C72_gaussian sizes hp hB
  obtain ⟨h1, h2⟩ := trace_sq_eq (gA.1.1.sub gB.1.1) hT
  unfold snrVar
  simp only []
  refine ⟨by linarith, ⟨fun h => ?_, fun h => by rw [h]; simp⟩⟩
  have := sub_eq_zero.1 (h2.1 (by linarith))
  exact Prod.ext this (by rw [gA.2, gB.2, this])

/-- C72 (finding): when the judge cannot tell the candidates apart the gap has mean zero, but `snr` reports `inf` — the value
that means perfect discrimination. In particular `snr(A, A, ...)` is `inf`. -/
theorem C72_snr_inf (A B T : Matrix (Fin p) (Fin p) ℝ) (hT : PD T) (sizes : List ℕ) (hp : sizes.sum = p) (hA : Proper A g sizes) (hB : Proper B g sizes) :
    snr A B T sizes g = ⊤ ↔ schurOperator A sizes g = schurOperator B sizes g ∧ snrMu A B T sizes g = 0 := by
  obtain ⟨h1, h2⟩ := C72_var A B T hT sizes hp hA hB
  unfold snr
  simp only []
  split
  · rename_i h
    refine ⟨fun h' => absurd h' (WithTop.coe_ne_top), fun h' => absurd (h2.2 h'.1) h.ne'⟩
  · rename_i h
    have := h2.1 (le_antisymm (not_lt.1 h) h1)
    exact ⟨fun _ => ⟨this, by rw [snrMu, this]; simp⟩, fun _ => rfl⟩

/-- C72: otherwise `snr` is mean over standard deviation of the score gap, and the sign tells the better candidate. -/
theorem C72_snr_sign (A B T : Matrix (Fin p) (Fin p) ℝ) (hT : PD T) (sizes : List ℕ) (hp : sizes.sum = p) (hA : Proper A g sizes) (hB : Proper B g sizes)
    (hne : schurOperator A sizes g ≠ schurOperator B sizes g) :
    ∃ r : ℝ, snr A B T sizes g = (r : WithTop ℝ) ∧ r ^ 2 * snrVar A B T sizes g = snrMu A B T sizes g ^ 2 ∧
      (0 < r ↔ 0 < snrMu A B T sizes g) ∧ (r = 0 ↔ snrMu A B T sizes g = 0) := by
  obtain ⟨h1, h2⟩ := C72_var A B T hT sizes hp hA hB
  have hpos : 0 < snrVar A B T sizes g := lt_of_le_of_ne h1 fun h => hne (h2.1 h.symm)
  have hs := Real.sqrt_pos.2 hpos
  refine ⟨snrMu A B T sizes g / Real.sqrt (snrVar A B T sizes g), ?_, ?_, ?_, ?_⟩
  · unfold snr; simp only []; rw [if_pos hpos]
  · rw [div_pow, Real.sq_sqrt h1, div_mul_cancel₀ _ hpos.ne']
  · rw [div_pos_iff_of_pos_right hs]
  · rw [div_eq_zero_iff]; simp [hs.ne']

/-- C72: `_kl` is never negative and is zero exactly when the estimate is the truth. -/
theorem C72_kl {ι : Type} [Fintype ι] [DecidableEq ι] (H T : Matrix ι ι ℝ) (hH : PD H) (hT : PD T) : 0 ≤ kl H T ∧ (kl H T = 0 ↔ H = T) := by
  obtain ⟨s1, s2⟩ := stein hH.inv hT
  have hlog : Real.log H⁻¹.det = - Real.log H.det := by rw [det_nonsing_inv, Ring.inverse_eq_inv', Real.log_inv]
  rw [hlog] at s1 s2
  unfold kl
  rw [abs_of_pos hH.det_pos, abs_of_pos hT.det_pos]
  refine ⟨by linarith, ⟨fun h => ?_, fun h => ?_⟩⟩
  · have := congrArg (·⁻¹) (s2 (by linarith))
    simpa [nonsing_inv_nonsing_inv _ (isUnit_iff_ne_zero.2 hH.det_pos.ne'), nonsing_inv_nonsing_inv _ (isUnit_iff_ne_zero.2 hT.det_pos.ne')] using this
  · subst h
    rw [nonsing_inv_mul _ (isUnit_iff_ne_zero.2 hH.det_pos.ne'), trace_one]; ring

/-- C72: at `gamma = 1` the mean score gap is the difference of the Kullback-Leibler divergences: the judge ranks the candidates
by distance to the truth. -/
theorem C72_mu_kl (A B T : Matrix (Fin p) (Fin p) ℝ) (hA : PD A) (hB : PD B) (sizes : List ℕ) (hp : sizes.sum = p) :
    snrMu A B T sizes 1 = kl B T - kl A T := by
  obtain ⟨a1, a2⟩ := C72_gamma_one sizes hp hA
  obtain ⟨b1, b2⟩ := C72_gamma_one sizes hp hB
  rw [snrMu, a1, a2, b1, b2, kl, kl, abs_of_pos hA.det_pos, abs_of_pos hB.det_pos, Matrix.sub_mul, trace_sub]; ring

/-- C72: for any `gamma <= 1` the mean gap is the difference of the divergences of the *damped* Gaussians with covariance `W⁻¹`. -/
theorem C72_mu_kl_damped (A B T : Matrix (Fin p) (Fin p) ℝ) (hA : PD A) (hB : PD B) (hg : g ≤ 1) (sizes : List ℕ) (hp : sizes.sum = p) :
    snrMu A B T sizes g = kl (schurOperator B sizes g).1⁻¹ T - kl (schurOperator A sizes g).1⁻¹ T := by
  obtain ⟨a1, a2⟩ := C72_gaussian sizes hp (C72_proper sizes hA hg)
  obtain ⟨b1, b2⟩ := C72_gaussian sizes hp (C72_proper sizes hB hg)
  have key : ∀ W : Matrix (Fin p) (Fin p) ℝ, PD W → Real.log |W⁻¹.det| = - Real.log W.det := fun W hW => by
    rw [abs_of_pos hW.inv.det_pos, det_nonsing_inv, Ring.inverse_eq_inv', Real.log_inv]
  rw [snrMu, a2, b2, kl, kl, key _ a1, key _ b1, nonsing_inv_nonsing_inv _ (isUnit_iff_ne_zero.2 a1.det_pos.ne'),
    nonsing_inv_nonsing_inv _ (isUnit_iff_ne_zero.2 b1.det_pos.ne'), Matrix.sub_mul, trace_sub]; ring

/-! ### The closed forms are the moments of the score gap -/

theorem E_quad {ι : Type} [Fintype ι] {E : ((ι → ℝ) → ℝ) →ₗ[ℝ] ℝ} {T : Matrix ι ι ℝ} (hE : GaussMoments E T) (hT : Symm T) (D : Matrix ι ι ℝ) :
    E (fun x => quad D x) = (D * T).trace := by
  have : (fun x : ι → ℝ => quad D x) = ∑ i, ∑ j, D i j • fun x : ι → ℝ => x i * x j := by
    funext x
    rw [quad_expand, Finset.sum_apply]
    refine Finset.sum_congr rfl fun i _ => ?_
    rw [Finset.sum_apply]
    exact Finset.sum_congr rfl fun j _ => by simp; ring
  rw [this, map_sum, trace]
  refine Finset.sum_congr rfl fun i _ => ?_
  rw [map_sum, diag_apply, mul_apply]
  exact Finset.sum_congr rfl fun j _ => by rw [map_smul, hE.second, smul_eq_mul, hT i j]

theorem E_quad_sq {ι : Type} [Fintype ι] {E : ((ι → ℝ) → ℝ) →ₗ[ℝ] ℝ} {T : Matrix ι ι ℝ} (hE : GaussMoments E T) (hT : Symm T)
    {D : Matrix ι ι ℝ} (hD : Symm D) :
    E (fun x => quad D x * quad D x) = (D * T).trace ^ 2 + 2 * (D * T * (D * T)).trace := by
  have : (fun x : ι → ℝ => quad D x * quad D x) = ∑ i, ∑ j, ∑ k, ∑ l, (D i j * D k l) • fun x : ι → ℝ => x i * x j * (x k * x l) := by
    funext x
    simp only [quad_expand, Finset.sum_apply, Pi.smul_apply, smul_eq_mul, Finset.sum_mul, Finset.mul_sum]
    refine Finset.sum_congr rfl fun i _ => Finset.sum_congr rfl fun j _ => Finset.sum_congr rfl fun k _ => Finset.sum_congr rfl fun l _ => by ring
  rw [this]
  simp only [map_sum, map_smul, hE.fourth, smul_eq_mul]
  have e1 : (D * T).trace ^ 2 = ∑ i, ∑ j, ∑ k, ∑ l, (D i j * D k l) * (T i j * T k l) := by
    rw [sq, trace]
    simp only [diag_apply, mul_apply, Finset.sum_mul, Finset.mul_sum]
    refine Finset.sum_congr rfl fun i _ => Finset.sum_congr rfl fun j _ => Finset.sum_congr rfl fun k _ => Finset.sum_congr rfl fun l _ => by
      rw [hT j i, hT l k]; ring
  have e2 : (D * T * (D * T)).trace = ∑ i, ∑ j, ∑ k, ∑ l, (D i j * D k l) * (T i k * T j l) := by
    rw [trace]
    refine Finset.sum_congr rfl fun i _ => ?_
    have : (D * T * (D * T)) i i = ∑ l, ∑ j, ∑ k, (D i j * T j l) * (D l k * T k i) := by
      rw [mul_apply]
      exact Finset.sum_congr rfl fun l _ => by rw [mul_apply, mul_apply, Finset.sum_mul_sum]
    rw [diag_apply, this, Finset.sum_comm]
    refine Finset.sum_congr rfl fun j _ => ?_
    rw [Finset.sum_comm]
    exact Finset.sum_congr rfl fun k _ => Finset.sum_congr rfl fun l _ => by rw [hD l k, hT k i]; ring
  have e3 : (D * T * (D * T)).trace = ∑ i, ∑ j, ∑ k, ∑ l, (D i j * D k l) * (T i l * T j k) := by
    rw [e2]
    refine Finset.sum_congr rfl fun i _ => Finset.sum_congr rfl fun j _ => ?_
    rw [Finset.sum_comm]
    exact Finset.sum_congr rfl fun k _ => Finset.sum_congr rfl fun l _ => by rw [hD l k]
  rw [two_mul, e1]
  nth_rewrite 1 [e2]
  rw [e3]
  simp only [← Finset.sum_add_distrib]
  refine Finset.sum_congr rfl fun i _ => Finset.sum_congr rfl fun j _ => Finset.sum_congr rfl fun k _ => Finset.sum_congr rfl fun l _ => by ring

/-- C72: `mu` and `var` of `snr` are the exact mean and variance of the score gap of one observation, for every law with the second
and fourth moments of a centred Gaussian with covariance `T`. -/
theorem C72_gap_moments (A B T : Matrix (Fin p) (Fin p) ℝ) (hT : Symm T) (sizes : List ℕ) (hA : Proper A g sizes) (hB : Proper B g sizes)
    (E : ((Fin p → ℝ) → ℝ) →ₗ[ℝ] ℝ) (hE : GaussMoments E T) :
    E (gap A B sizes g) = snrMu A B T sizes g ∧ E (fun x => (gap A B sizes g x - snrMu A B T sizes g) ^ 2) = snrVar A B T sizes g := by
  have hD : Symm ((schurOperator A sizes g).1 - (schurOperator B sizes g).1) := by
    rw [schurOperator_eq A g sizes hA, schurOperator_eq B g sizes hB]
    exact (operatorFrom_psd A g sizes 0 ((proper_iff _ _ _).1 hA)).1.sub (operatorFrom_psd B g sizes 0 ((proper_iff _ _ _).1 hB)).1
  set D := (schurOperator A sizes g).1 - (schurOperator B sizes g).1 with hDef
  have hg : gap A B sizes g = (-(1 / 2) * ((schurOperator A sizes g).2 - (schurOperator B sizes g).2)) • (fun _ => (1:ℝ)) + (-(1 / 2) : ℝ) • fun x => quad D x := by
    funext x
    simp only [gap, hDef, quad_sub, Pi.add_apply, Pi.smul_apply, smul_eq_mul]; ring
  have hmu : snrMu A B T sizes g = -(1 / 2) * (((schurOperator A sizes g).2 - (schurOperator B sizes g).2) + (D * T).trace) := rfl
  constructor
  · rw [hg, map_add, map_smul, map_smul, hE.total, E_quad hE hT, hmu]; simp; ring
  · have hsq : (fun x => (gap A B sizes g x - snrMu A B T sizes g) ^ 2) =
        (1 / 4 : ℝ) • (fun x => quad D x * quad D x) + (-(1 / 2) * (D * T).trace) • (fun x => quad D x) + (1 / 4 * (D * T).trace ^ 2) • fun _ => (1:ℝ) := by
      funext x
      have := congrFun hg x
      simp only [Pi.add_apply, Pi.smul_apply, smul_eq_mul, mul_one] at this ⊢
      rw [this, hmu]; ring
    have hv : snrVar A B T sizes g = 1 / 2 * (D * T * (D * T)).trace := rfl
    rw [hsq, map_add, map_add, map_smul, map_smul, map_smul, hE.total, E_quad hE hT, E_quad_sq hE hT hD, hv]
    simp; ring

/-- A law with these moments exists: three points in one dimension. -/
example : GaussMoments (ι := Fin 1) ((1 / 6 : ℝ) • LinearMap.proj (fun _ => Real.sqrt 3) + (1 / 6 : ℝ) • LinearMap.proj (fun _ => -Real.sqrt 3) +
    (2 / 3 : ℝ) • LinearMap.proj (fun _ => 0)) 1 := by
  have h3 : Real.sqrt 3 * Real.sqrt 3 = 3 := Real.mul_self_sqrt (by norm_num)
  refine ⟨?_, ?_, ?_⟩
  · simp; norm_num
  · intro i j; fin_cases i; fin_cases j; simp [h3]; norm_num
  · intro i j k l; fin_cases i; fin_cases j; fin_cases k; fin_cases l; simp [h3]; norm_num

/-! ### Non-vacuity -/

/-- two correlated variables in two blocks; the candidate without the correlation -/
theorem pd_demo2 : PD (!![2, 1; 1, 2] : Matrix (Fin 2) (Fin 2) ℝ) :=
  ⟨fun i j => by fin_cases i <;> fin_cases j <;> rfl, fun x hx => by
    have h : x 0 ≠ 0 ∨ x 1 ≠ 0 := by
      by_contra h; push Not at h; exact hx (by ext i; fin_cases i <;> simp [h.1, h.2])
    have e : quad !![2, 1; 1, 2] x = x 0 ^ 2 + x 1 ^ 2 + (x 0 + x 1) ^ 2 := by
      simp [quad, mulVec, dotProduct, Fin.sum_univ_two]; ring
    rw [e]
    rcases h with h | h
    · have := sq_pos_of_ne_zero h; positivity
    · have := sq_pos_of_ne_zero h; positivity⟩

example : (schurOperator (!![2, 1; 1, 2] : Matrix (Fin 2) (Fin 2) ℝ) [1, 1] 1).2 = Real.log 3 := by
  have := (C72_gamma_one (p := 2) [1, 1] rfl pd_demo2).2
  rw [this, det_fin_two]; norm_num

example : snr (!![2, 1; 1, 2] : Matrix (Fin 2) (Fin 2) ℝ) !![2, 1; 1, 2] !![2, 1; 1, 2] [1, 1] 1 = ⊤ :=
  (C72_snr_inf _ _ _ pd_demo2 [1, 1] rfl (C72_proper _ pd_demo2 le_rfl) (C72_proper _ pd_demo2 le_rfl)).2 ⟨rfl, by simp [snrMu]⟩

/-- At `gamma = 0` the judge cannot see that the correlation is missing: `snr` is `inf` although the divergence differs. -/
example : snr (!![2, 1; 1, 2] : Matrix (Fin 2) (Fin 2) ℝ) !![2, 0; 0, 2] !![2, 1; 1, 2] [1, 1] 0 = ⊤ := by
  have hB : PD (!![2, 0; 0, 2] : Matrix (Fin 2) (Fin 2) ℝ) := by
    have : (!![2, 0; 0, 2] : Matrix (Fin 2) (Fin 2) ℝ) = diagonal fun _ => 2 := by ext i j; fin_cases i <;> fin_cases j <;> rfl
    rw [this]; exact pd_diagonal fun _ => by norm_num
  have he : schurOperator (!![2, 1; 1, 2] : Matrix (Fin 2) (Fin 2) ℝ) [1, 1] 0 = schurOperator !![2, 0; 0, 2] [1, 1] 0 := by
    refine C72_gamma_zero _ _ ?_
    intro b hb i j h1 h2 h3 h4
    simp only [blocksFrom, List.mem_cons, List.not_mem_nil, or_false] at hb
    rcases hb with rfl | rfl <;> fin_cases i <;> fin_cases j <;> simp_all
  exact (C72_snr_inf _ _ _ pd_demo2 [1, 1] rfl (C72_proper _ pd_demo2 zero_le_one) (C72_proper _ hB zero_le_one)).2 ⟨he, by rw [snrMu, he]; simp⟩

end Precise.Theory
