import Verif.Spec.Theory
import Verif.Lemmas.Linalg
import Mathlib.LinearAlgebra.Matrix.SchurComplement

/-!
# Lemmas for the Schur-likelihood theory
-/

set_option linter.all false

open Matrix

namespace Precise.Theory

open Precise.Spec

variable {p : ℕ}

/-- selection of the variables of a block / of the earlier variables -/
noncomputable def selP (p a s : ℕ) : Matrix (Blk p a s) (Fin p) ℝ := (1 : Matrix (Fin p) (Fin p) ℝ).submatrix Subtype.val id
@[inherit_doc selP]
noncomputable def selQ (p a : ℕ) : Matrix (Pre p a) (Fin p) ℝ := (1 : Matrix (Fin p) (Fin p) ℝ).submatrix Subtype.val id

theorem sel_mul {α β : Type} [Fintype α] (f : α → Fin p) (T : Matrix (Fin p) β ℝ) :
    (1 : Matrix (Fin p) (Fin p) ℝ).submatrix f id * T = T.submatrix f id := by
  ext i j; simp [Matrix.mul_apply, Matrix.one_apply]

theorem mul_sel {α β : Type} [Fintype α] (f : α → Fin p) (T : Matrix β (Fin p) ℝ) :
    T * ((1 : Matrix (Fin p) (Fin p) ℝ).submatrix f id)ᵀ = T.submatrix id f := by
  ext i j; simp [Matrix.mul_apply, Matrix.one_apply]

theorem PTP (T : Matrix (Fin p) (Fin p) ℝ) (a s : ℕ) : selP p a s * T * (selP p a s)ᵀ = subKK T a s := by
  unfold selP; rw [sel_mul, mul_sel]; rfl
theorem PTQ (T : Matrix (Fin p) (Fin p) ℝ) (a s : ℕ) : selP p a s * T * (selQ p a)ᵀ = subKW T a s := by
  unfold selP selQ; rw [sel_mul, mul_sel]; rfl
theorem QTQ (T : Matrix (Fin p) (Fin p) ℝ) (a : ℕ) : selQ p a * T * (selQ p a)ᵀ = subWW T a := by
  unfold selQ; rw [sel_mul, mul_sel]; rfl
theorem QTP {T : Matrix (Fin p) (Fin p) ℝ} (h : Symm T) (a s : ℕ) : selQ p a * T * (selP p a s)ᵀ = (subKW T a s)ᵀ := by
  unfold selP selQ; rw [sel_mul, mul_sel]; ext i j; exact h _ _

/-- `x_K - G x_W` has covariance `KK - G KWᵀ - KW Gᵀ + G WW Gᵀ` -/
theorem resid_cov {T : Matrix (Fin p) (Fin p) ℝ} (h : Symm T) (a s : ℕ) (G : Matrix (Blk p a s) (Pre p a) ℝ) :
    (selP p a s - G * selQ p a) * T * (selP p a s - G * selQ p a)ᵀ =
      subKK T a s - G * (subKW T a s)ᵀ - subKW T a s * Gᵀ + G * subWW T a * Gᵀ := by
  rw [← PTP, ← QTP h, ← PTQ, ← QTQ]
  simp only [transpose_sub, transpose_mul, Matrix.sub_mul, Matrix.mul_sub, Matrix.mul_assoc]
  abel

theorem PPt (a s : ℕ) : selP p a s * (selP p a s)ᵀ = 1 := by
  ext i j
  simp [selP, Matrix.mul_apply, Matrix.one_apply, Subtype.ext_iff]

theorem QQt (a : ℕ) : selQ p a * (selQ p a)ᵀ = 1 := by
  ext i j
  simp [selQ, Matrix.mul_apply, Matrix.one_apply, Subtype.ext_iff]

theorem PQt (a s : ℕ) : selP p a s * (selQ p a)ᵀ = 0 := by
  ext i j
  have : j.1 ≠ i.1 := fun h => by have h1 := j.2; have h2 := i.2.1; rw [h] at h1; omega
  simp [selP, selQ, Matrix.mul_apply, Matrix.one_apply, this.symm]

theorem QPt (a s : ℕ) : selQ p a * (selP p a s)ᵀ = 0 := by
  have := congrArg Matrix.transpose (PQt (p := p) a s)
  simpa using this

theorem pd_WW {T : Matrix (Fin p) (Fin p) ℝ} (h : PD T) (a : ℕ) : PD (subWW T a) := by
  rw [← QTQ]
  refine h.congr_inj _ fun x hx => ?_
  have := congrArg (fun z => selQ p a *ᵥ z) hx
  simpa [mulVec_mulVec, QQt] using this

theorem symm_WW {T : Matrix (Fin p) (Fin p) ℝ} (h : Symm T) (a : ℕ) : Symm (subWW T a) := fun i j => h _ _
theorem symm_KK {T : Matrix (Fin p) (Fin p) ℝ} (h : Symm T) (a s : ℕ) : Symm (subKK T a s) := fun i j => h _ _

theorem regression_eq (T : Matrix (Fin p) (Fin p) ℝ) (a s : ℕ) : regression T a s = subKW T a s * (subWW T a)⁻¹ := rfl

theorem condCov_eq {T : Matrix (Fin p) (Fin p) ℝ} (h : Symm T) (a s : ℕ) :
    condCov T a s = subKK T a s - regression T a s * (subKW T a s)ᵀ := by
  unfold condCov
  congr 2
  ext i j; exact h _ _

theorem regression_normal {T : Matrix (Fin p) (Fin p) ℝ} {a : ℕ} (s : ℕ) (h : (subWW T a).det ≠ 0) :
    regression T a s * subWW T a = subKW T a s := by
  rw [regression_eq, Matrix.mul_assoc, nonsing_inv_mul _ (isUnit_iff_ne_zero.2 h), Matrix.mul_one]

/-- covariance of the residual of any coefficient `G` = conditional covariance + loss from using `G` instead of the regression -/
theorem resid_decomp {T : Matrix (Fin p) (Fin p) ℝ} (h : Symm T) (a s : ℕ) (hd : (subWW T a).det ≠ 0) (G : Matrix (Blk p a s) (Pre p a) ℝ) :
    subKK T a s - G * (subKW T a s)ᵀ - subKW T a s * Gᵀ + G * subWW T a * Gᵀ =
      condCov T a s + (regression T a s - G) * subWW T a * (regression T a s - G)ᵀ := by
  have hn := regression_normal s hd
  rw [condCov_eq h, Matrix.sub_mul, hn, transpose_sub, Matrix.sub_mul, Matrix.mul_sub, Matrix.mul_sub]
  have e : subKW T a s * (regression T a s)ᵀ = regression T a s * (subKW T a s)ᵀ := by
    conv_lhs => rw [← hn]
    conv_rhs => rw [← hn, transpose_mul, (symm_WW h a).transpose]
    rw [Matrix.mul_assoc]
  have e2 : G * subWW T a * (regression T a s)ᵀ = G * (subKW T a s)ᵀ := by
    rw [Matrix.mul_assoc]; congr 1
    conv_rhs => rw [← hn, transpose_mul, (symm_WW h a).transpose]
  rw [e, e2]
  abel

theorem condCov_congr {T : Matrix (Fin p) (Fin p) ℝ} (h : Symm T) (a s : ℕ) (hd : (subWW T a).det ≠ 0) :
    condCov T a s = (selP p a s - regression T a s * selQ p a) * T * (selP p a s - regression T a s * selQ p a)ᵀ := by
  rw [resid_cov h, resid_decomp h a s hd, sub_self]
  simp

theorem pd_condCov {T : Matrix (Fin p) (Fin p) ℝ} (h : PD T) (a s : ℕ) : PD (condCov T a s) := by
  rw [condCov_congr h.1 a s (pd_WW h a).det_pos.ne']
  refine h.congr_inj _ fun x hx => ?_
  have := congrArg (fun z => selP p a s *ᵥ z) hx
  simp only [transpose_sub, transpose_mul, mulVec_mulVec, Matrix.mul_sub, PPt, ← Matrix.mul_assoc, PQt, Matrix.zero_mul, sub_zero,
    one_mulVec, mulVec_zero] at this
  exact this

/-! ## determinant chain rule -/

def preEquiv (p a s : ℕ) : Pre p a ⊕ Blk p a s ≃ Pre p (a + s) where
  toFun := Sum.elim (fun i => ⟨i.1, by have := i.2; omega⟩) (fun i => ⟨i.1, i.2.2⟩)
  invFun i := if h : i.1.1 < a then .inl ⟨i.1, h⟩ else .inr ⟨i.1, by have := i.2; omega, i.2⟩
  left_inv := by
    rintro (i | i)
    · simp [i.2]
    · have := i.2.1; simp [not_lt.2 this]
  right_inv := by
    intro i
    dsimp only
    split <;> rfl

theorem fromBlocks_pre {T : Matrix (Fin p) (Fin p) ℝ} (h : Symm T) (a s : ℕ) :
    (subWW T (a + s)).submatrix (preEquiv p a s) (preEquiv p a s) = fromBlocks (subWW T a) (subKW T a s)ᵀ (subKW T a s) (subKK T a s) := by
  ext (i | i) (j | j)
  · rfl
  · exact h _ _
  · rfl
  · rfl

theorem det_chain {T : Matrix (Fin p) (Fin p) ℝ} (h : Symm T) (a s : ℕ) (hd : (subWW T a).det ≠ 0) :
    (subWW T (a + s)).det = (subWW T a).det * (condCov T a s).det := by
  haveI : Invertible (subWW T a) := invertibleOfIsUnitDet _ (isUnit_iff_ne_zero.2 hd)
  rw [← det_submatrix_equiv_self (preEquiv p a s), fromBlocks_pre h, det_fromBlocks₁₁, condCov_eq h, regression_eq, invOf_eq_nonsing_inv]

theorem det_pre_zero (T : Matrix (Fin p) (Fin p) ℝ) : (subWW T 0).det = 1 := by
  haveI : IsEmpty (Pre p 0) := ⟨fun i => absurd i.2 (by omega)⟩
  exact det_isEmpty

theorem det_pre_all (T : Matrix (Fin p) (Fin p) ℝ) : (subWW T p).det = T.det := by
  let e : Fin p ≃ Pre p p := ⟨fun i => ⟨i, i.2⟩, fun i => i.1, fun _ => rfl, fun _ => rfl⟩
  rw [← det_submatrix_equiv_self e]; rfl

theorem card_blk (a s : ℕ) (h : a + s ≤ p) : Fintype.card (Blk p a s) = s := by
  have e : Blk p a s ≃ Fin s :=
    { toFun := fun i => ⟨i.1.1 - a, by have := i.2; omega⟩
      invFun := fun i => ⟨⟨a + i.1, by have := i.2; omega⟩, by have := i.2; simp⟩
      left_inv := fun i => by ext; have := i.2; simp; omega
      right_inv := fun i => by ext; simp }
  rw [Fintype.card_congr e, Fintype.card_fin]

/-! ## the model's expressions -/

theorem dampS_eq (M : Matrix (Fin p) (Fin p) ℝ) (g : ℝ) (a s : ℕ) :
    dampS M g a s = subKK M a s - g • (subKW M a s * ((subWW M a)⁻¹ * (subKW M a s)ᵀ)) := by
  unfold dampS
  split
  · rename_i h; subst h
    haveI : IsEmpty (Pre p 0) := ⟨fun i => absurd i.2 (by omega)⟩
    have : subKW M 0 s * ((subWW M 0)⁻¹ * (subKW M 0 s)ᵀ) = 0 := by ext i j; simp [Matrix.mul_apply]
    rw [this]; simp
  · rfl

theorem residM_eq (T M : Matrix (Fin p) (Fin p) ℝ) (g : ℝ) (a s : ℕ) :
    residM T M g a s = subKK T a s - effG M g a s * (subKW T a s)ᵀ - subKW T a s * (effG M g a s)ᵀ + effG M g a s * subWW T a * (effG M g a s)ᵀ := by
  unfold residM
  split
  · rename_i h; subst h
    haveI : IsEmpty (Pre p 0) := ⟨fun i => absurd i.2 (by omega)⟩
    have e1 : effG M g 0 s * (subKW T 0 s)ᵀ = 0 := by ext i j; simp [Matrix.mul_apply]
    have e2 : subKW T 0 s * (effG M g 0 s)ᵀ = 0 := by ext i j; simp [Matrix.mul_apply]
    have e3 : effG M g 0 s * subWW T 0 * (effG M g 0 s)ᵀ = 0 := by ext i j; simp [Matrix.mul_apply]
    rw [e1, e2, e3]; simp
  · rfl

variable (T : Matrix (Fin p) (Fin p) ℝ) (g : ℝ)

theorem closedStep_pre (a s : ℕ) (Sig : Matrix (Fin p) (Fin p) ℝ) (i j : Fin p) (hi : i.1 < a) (hj : j.1 < a) :
    closedStep T g a s Sig i j = Sig i j := by
  have h1 : ¬ (a ≤ i.1 ∧ i.1 < a + s) := by omega
  have h2 : ¬ (a ≤ j.1 ∧ j.1 < a + s) := by omega
  simp [closedStep, h1, h2]

theorem closedStep_KW (a s : ℕ) (Sig : Matrix (Fin p) (Fin p) ℝ) :
    subKW (closedStep T g a s Sig) a s = (g⁻¹ • regression T a s) * subWW Sig a := by
  ext i j
  have h2 : ¬ (a ≤ j.1.1 ∧ j.1.1 < a + s) := by have := j.2; omega
  show closedStep T g a s Sig i.1 j.1 = _
  simp only [closedStep, Matrix.of_apply]
  rw [dif_pos i.2, dif_neg h2, dif_pos j.2]
  rfl

theorem closedStep_WK (a s : ℕ) (Sig : Matrix (Fin p) (Fin p) ℝ) (i : Blk p a s) (j : Pre p a) :
    closedStep T g a s Sig j.1 i.1 = closedStep T g a s Sig i.1 j.1 := by
  have h2 : ¬ (a ≤ j.1.1 ∧ j.1.1 < a + s) := by have := j.2; omega
  simp only [closedStep, Matrix.of_apply]
  rw [dif_neg h2, dif_pos i.2, dif_pos j.2, dif_pos i.2, dif_neg h2, dif_pos j.2]

theorem closedStep_KK (hT : Symm T) (a s : ℕ) (Sig : Matrix (Fin p) (Fin p) ℝ) :
    subKK (closedStep T g a s Sig) a s = condCov T a s + g • ((g⁻¹ • regression T a s) * subWW Sig a * (g⁻¹ • regression T a s)ᵀ) := by
  ext i j
  show closedStep T g a s Sig i.1 j.1 = _
  simp only [closedStep, Matrix.of_apply]
  rw [dif_pos i.2, dif_pos j.2]
  split
  · rename_i h; subst h
    haveI : IsEmpty (Pre p 0) := ⟨fun i => absurd i.2 (by omega)⟩
    rw [condCov_eq hT]
    simp [Matrix.mul_apply]
  · rw [condCov_eq hT]; rfl

theorem closedFrom_pre (rest : List ℕ) : ∀ (a : ℕ) (Sig : Matrix (Fin p) (Fin p) ℝ) (i j : Fin p), i.1 < a → j.1 < a →
    closedFrom T g a rest Sig i j = Sig i j := by
  induction rest with
  | nil => intros; rfl
  | cons s rest ih =>
    intro a Sig i j hi hj
    rw [closedFrom, ih _ _ i j (by omega) (by omega), closedStep_pre T g a s Sig i j hi hj]

/-- the equations of the closed form for one block -/
def Inflated (M : Matrix (Fin p) (Fin p) ℝ) (b : ℕ × ℕ) : Prop :=
  subKW M b.1 b.2 = (g⁻¹ • regression T b.1 b.2) * subWW M b.1 ∧
  subKK M b.1 b.2 = condCov T b.1 b.2 + g • ((g⁻¹ • regression T b.1 b.2) * subWW M b.1 * (g⁻¹ • regression T b.1 b.2)ᵀ)

theorem closedFrom_inflated (hT : Symm T) (rest : List ℕ) : ∀ (a : ℕ) (Sig : Matrix (Fin p) (Fin p) ℝ), ∀ b ∈ blocksFrom a rest,
    Inflated T g (closedFrom T g a rest Sig) b := by
  induction rest with
  | nil => intro a Sig b hb; simp [blocksFrom] at hb
  | cons s rest ih =>
    intro a Sig b hb
    rw [blocksFrom, List.mem_cons] at hb
    rcases hb with rfl | hb
    · have eW : subWW (closedFrom T g a (s :: rest) Sig) a = subWW Sig a := by
        ext i j; exact closedFrom_pre T g (s :: rest) a Sig i.1 j.1 i.2 j.2
      have eK : subKW (closedFrom T g a (s :: rest) Sig) a s = subKW (closedStep T g a s Sig) a s := by
        ext i j
        exact closedFrom_pre T g rest (a + s) _ i.1 j.1 i.2.2 (by have := j.2; omega)
      have eKK : subKK (closedFrom T g a (s :: rest) Sig) a s = subKK (closedStep T g a s Sig) a s := by
        ext i j
        exact closedFrom_pre T g rest (a + s) _ i.1 j.1 i.2.2 j.2.2
      refine ⟨?_, ?_⟩
      · show subKW (closedFrom T g a (s :: rest) Sig) a s = _
        rw [eK, eW, closedStep_KW]
      · show subKK (closedFrom T g a (s :: rest) Sig) a s = _
        rw [eKK, eW, closedStep_KK T g hT]
    · exact ih (a + s) _ b hb

theorem symm_condCov {T : Matrix (Fin p) (Fin p) ℝ} (hT : PD T) (a s : ℕ) : Symm (condCov T a s) := (pd_condCov hT a s).1

theorem closedFrom_symm (hT : PD T) (rest : List ℕ) : ∀ (a : ℕ) (Sig : Matrix (Fin p) (Fin p) ℝ),
    (∀ i j : Fin p, i.1 < a → j.1 < a → Sig i j = Sig j i) → ∀ i j : Fin p, i.1 < a + rest.sum → j.1 < a + rest.sum →
      closedFrom T g a rest Sig i j = closedFrom T g a rest Sig j i := by
  induction rest with
  | nil => intro a Sig h i j hi hj; exact h i j (by simpa using hi) (by simpa using hj)
  | cons s rest ih =>
    intro a Sig h i j hi hj
    rw [closedFrom]
    refine ih (a + s) _ ?_ i j (by simpa [add_assoc] using hi) (by simpa [add_assoc] using hj)
    intro i j hi hj
    by_cases h1 : i.1 < a <;> by_cases h2 : j.1 < a
    · rw [closedStep_pre T g a s Sig i j h1 h2, closedStep_pre T g a s Sig j i h2 h1, h i j h1 h2]
    · exact closedStep_WK T g a s Sig ⟨j, by omega, hj⟩ ⟨i, h1⟩
    · exact (closedStep_WK T g a s Sig ⟨i, by omega, hi⟩ ⟨j, h2⟩).symm
    · have hs : Symm (subKK (closedStep T g a s Sig) a s) := by
        rw [closedStep_KK T g hT.1]
        have hW : Symm (subWW Sig a) := fun i j => h i.1 j.1 i.2 j.2
        exact (symm_condCov hT a s).add ((hW.congr _).smul g)
      exact hs ⟨i, by omega, hi⟩ ⟨j, by omega, hj⟩

theorem closedFormGeneral_eq (hT : PD T) (sizes : List ℕ) (hp : sizes.sum = p) :
    closedFormGeneral T sizes g = closedFrom T g 0 sizes 0 ∧ Symm (closedFormGeneral T sizes g) := by
  have hs : Symm (closedFrom T g 0 sizes 0) := fun i j =>
    closedFrom_symm T g hT sizes 0 0 (fun i j hi _ => absurd hi (by omega)) i j (by rw [hp, zero_add]; exact i.2) (by rw [hp, zero_add]; exact j.2)
  unfold closedFormGeneral
  exact ⟨toSymmetric_of_symm hs, symm_toSymmetric _⟩

theorem closedForm_inflated (hT : PD T) (sizes : List ℕ) (hp : sizes.sum = p) (b : ℕ × ℕ) (hb : b ∈ blocksFrom 0 sizes) :
    Inflated T g (closedFormGeneral T sizes g) b := by
  rw [(closedFormGeneral_eq T g hT sizes hp).1]
  exact closedFrom_inflated T g hT.1 sizes 0 0 b hb

/-- the equations determine the matrix -/
theorem inflated_unique {M N : Matrix (Fin p) (Fin p) ℝ} (hM : Symm M) (hN : Symm N) (rest : List ℕ) : ∀ a,
    (∀ i j : Fin p, i.1 < a → j.1 < a → M i j = N i j) →
    (∀ b ∈ blocksFrom a rest, Inflated T g M b) → (∀ b ∈ blocksFrom a rest, Inflated T g N b) →
    ∀ i j : Fin p, i.1 < a + rest.sum → j.1 < a + rest.sum → M i j = N i j := by
  induction rest with
  | nil => intro a h _ _ i j hi hj; exact h i j (by simpa using hi) (by simpa using hj)
  | cons s rest ih =>
    intro a h h1 h2 i j hi hj
    have hW : subWW M a = subWW N a := by ext i j; exact h _ _ i.2 j.2
    obtain ⟨m1, m2⟩ := h1 (a, s) (by simp [blocksFrom])
    obtain ⟨n1, n2⟩ := h2 (a, s) (by simp [blocksFrom])
    have hKW : subKW M a s = subKW N a s := by rw [m1, n1]; simp only [hW]
    have hKK : subKK M a s = subKK N a s := by rw [m2, n2]; simp only [hW]
    refine ih (a + s) ?_ (fun b hb => h1 b (by simp [blocksFrom, hb])) (fun b hb => h2 b (by simp [blocksFrom, hb])) i j
      (by simpa [add_assoc] using hi) (by simpa [add_assoc] using hj)
    intro i j hi hj
    by_cases h1 : i.1 < a <;> by_cases h2 : j.1 < a
    · exact h i j h1 h2
    · rw [hM i j, hN i j]; exact congrFun (congrFun hKW ⟨j, by omega, hj⟩) ⟨i, h1⟩
    · exact congrFun (congrFun hKW ⟨i, by omega, hi⟩) ⟨j, h2⟩
    · exact congrFun (congrFun hKK ⟨i, by omega, hi⟩) ⟨j, by omega, hj⟩

variable {T g}

/-- a matrix with the equations has the true predictive law, if the conditioning block is invertible -/
theorem inflated_law {M : Matrix (Fin p) (Fin p) ℝ} (hg : g ≠ 0) (hM : Symm M) {b : ℕ × ℕ} (h : Inflated T g M b)
    (hd : (subWW M b.1).det ≠ 0) : effG M g b.1 b.2 = regression T b.1 b.2 ∧ dampS M g b.1 b.2 = condCov T b.1 b.2 := by
  obtain ⟨h1, h2⟩ := h
  have hu := isUnit_iff_ne_zero.2 hd
  constructor
  · unfold effG
    rw [h1, Matrix.mul_assoc, mul_nonsing_inv _ hu, Matrix.mul_one, smul_smul, mul_inv_cancel₀ hg, one_smul]
  · rw [dampS_eq, h2]
    have e : subKW M b.1 b.2 * ((subWW M b.1)⁻¹ * (subKW M b.1 b.2)ᵀ) = (g⁻¹ • regression T b.1 b.2) * subWW M b.1 * (g⁻¹ • regression T b.1 b.2)ᵀ := by
      rw [h1, transpose_mul, (symm_WW hM b.1).transpose, ← Matrix.mul_assoc (subWW M b.1)⁻¹, nonsing_inv_mul _ hu, Matrix.one_mul]
    rw [e, add_sub_cancel_right]

/-- conversely -/
theorem law_inflated {M : Matrix (Fin p) (Fin p) ℝ} (hg : g ≠ 0) (hM : Symm M) {b : ℕ × ℕ} (hd : (subWW M b.1).det ≠ 0)
    (h1 : effG M g b.1 b.2 = regression T b.1 b.2) (h2 : dampS M g b.1 b.2 = condCov T b.1 b.2) : Inflated T g M b := by
  have hu := isUnit_iff_ne_zero.2 hd
  have k1 : subKW M b.1 b.2 = (g⁻¹ • regression T b.1 b.2) * subWW M b.1 := by
    rw [← h1]; unfold effG
    rw [smul_smul, inv_mul_cancel₀ hg, one_smul, Matrix.mul_assoc, nonsing_inv_mul _ hu, Matrix.mul_one]
  refine ⟨k1, ?_⟩
  rw [← h2, dampS_eq]
  have e : subKW M b.1 b.2 * ((subWW M b.1)⁻¹ * (subKW M b.1 b.2)ᵀ) = (g⁻¹ • regression T b.1 b.2) * subWW M b.1 * (g⁻¹ • regression T b.1 b.2)ᵀ := by
    rw [k1, transpose_mul, (symm_WW hM b.1).transpose, ← Matrix.mul_assoc (subWW M b.1)⁻¹, nonsing_inv_mul _ hu, Matrix.one_mul]
  rw [e, sub_add_cancel]

end Precise.Theory
