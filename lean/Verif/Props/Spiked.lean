import Verif.Model.Spiked
import Verif.Lemmas.Pencil
import Verif.Props.Dynamic
import Verif.Props.Features
import Mathlib.Analysis.Calculus.Deriv.Slope
import Mathlib.LinearAlgebra.Matrix.Kronecker

/-!
# C90, C91: the training-draw experiments of the Schur-likelihood paper
-/

set_option linter.all false

open Matrix

namespace Precise.Theory

open Precise.Spec

variable {p : ℕ}

/-! ## The estimates -/

theorem shrinkIso_symm {S : Matrix (Fin p) (Fin p) ℝ} (hS : Symm S) (a : ℝ) : shrinkIso S a = (1 - a) • S + (a * (S.trace / p)) • 1 := by
  unfold shrinkIso
  simp only []
  rw [toSymmetric_of_symm, smul_smul]
  intro i j
  simp only [Matrix.add_apply, Matrix.smul_apply, smul_eq_mul]
  rw [hS i j, one_apply, one_apply]
  simp only [eq_comm]

theorem quad_one (x : Fin p → ℝ) : quad (1 : Matrix (Fin p) (Fin p) ℝ) x = normSq x := by
  simp [quad, normSq, dotProduct]

theorem isSpd_of_minEig (L : Lapack) {M : Matrix (Fin p) (Fin p) ℝ} {c : ℝ} (hc : 1 / 10 ^ 9 < c) (h : MinEigGE M c) : isSpd L M = true := by
  unfold isSpd
  rw [decide_eq_true_iff]
  intro i
  have hs := symm_toSymmetric M
  refine lt_of_lt_of_le hc (eigs_ge (L.eigh_orth _ hs) ?_ i)
  rw [← L.eigh_spec hs]
  intro x
  rw [quad_toSymmetric]; exact h x

/-- C90: the two estimates are shrinkage of the sample covariance towards a multiple of the identity: symmetric, with the same total
variance, and with smallest eigenvalue at least `alpha tr(S)/p`, whatever the sample (in particular with fewer rows than variables). -/
theorem C90_estimates (hp : 1 ≤ p) (X : List (Fin p → ℝ)) (alpha : ℝ) (h0 : 0 ≤ alpha) (h1 : alpha ≤ 1) :
    Symm (shrinkIso (npCov X) alpha) ∧ (shrinkIso (npCov X) alpha).trace = (npCov X).trace ∧
    MinEigGE (shrinkIso (npCov X) alpha) (alpha * ((npCov X).trace / p)) := by
  have hpsd : PSD (npCov X) := psd_covOf X
  refine ⟨symm_toSymmetric _, ?_, ?_⟩
  · have : (p : ℝ) ≠ 0 := by exact_mod_cast Nat.one_le_iff_ne_zero.1 hp
    rw [shrinkIso_symm hpsd.1, trace_add, trace_smul, trace_smul, trace_one, Fintype.card_fin, smul_eq_mul, smul_eq_mul]
    field_simp; ring
  · intro x
    rw [shrinkIso_symm hpsd.1, quad_add, quad_smul, quad_smul, quad_one]
    have := mul_nonneg (sub_nonneg.2 h1) (hpsd.2 x)
    linarith

/-- C90: so with both intensities positive the gap is a number for every sample whose total variance is not (numerically) zero, and
it is the difference of the expected test scores of the two estimates. -/
theorem C90_gap (L : Lapack) (hp : 1 ≤ p) (X : List (Fin p → ℝ)) (T : Matrix (Fin p) (Fin p) ℝ) (hT : Symm T) (sizes : List ℕ) (g a b : ℝ) (hg : g ≤ 1)
    (ha : a ≤ 1) (hb : b ≤ 1) (hA : 1 / 10 ^ 9 < a * ((npCov X).trace / p)) (hB : 1 / 10 ^ 9 < b * ((npCov X).trace / p)) :
    ∃ d u v : ℝ, scoreGap L (npCov X) sizes g T a b = some d ∧ d = u - v ∧
      expectedSchurLoglik L T (shrinkIso (npCov X) a) sizes g = (u : WithBot ℝ) ∧
      expectedSchurLoglik L T (shrinkIso (npCov X) b) sizes g = (v : WithBot ℝ) ∧
      (sizes.sum = p → g = 1 → d = kl (shrinkIso (npCov X) b) T - kl (shrinkIso (npCov X) a) T) := by
  have hpos : ∀ c : ℝ, c ≤ 1 → 1 / 10 ^ 9 < c * ((npCov X).trace / p) →
      isSpd L (shrinkIso (npCov X) c) = true ∧ PD (shrinkIso (npCov X) c) := by
    intro c h1 h2
    have htr : 0 ≤ (npCov X).trace / (p : ℝ) := div_nonneg (psd_covOf X).trace_nonneg (by positivity)
    have h0 : 0 ≤ c := by
      by_contra hn
      have := mul_nonpos_of_nonpos_of_nonneg (not_le.1 hn).le htr
      have : (0 : ℝ) < 1 / 10 ^ 9 := by positivity
      linarith
    obtain ⟨e1, -, e3⟩ := C90_estimates hp X c h0 h1
    refine ⟨isSpd_of_minEig L h2 e3, e1, fun x hx => lt_of_lt_of_le (mul_pos (lt_trans (by positivity) h2) ?_) (e3 x)⟩
    exact normSq_pos hx
  obtain ⟨a1, a2⟩ := hpos a ha hA
  obtain ⟨b1, b2⟩ := hpos b hb hB
  obtain ⟨u, v, hu, hv, huv⟩ := C72_mu L _ _ T hT sizes (C72_proper sizes a2 hg) (C72_proper sizes b2 hg)
  refine ⟨_, u, v, ?_, huv, hu, hv, ?_⟩
  · unfold scoreGap
    simp only [a1, b1, Bool.and_self, if_true]
  · intro hs h1
    subst h1
    exact C72_mu_kl _ _ T a2 b2 sizes hs

/-- C90: exchanging the estimates changes the sign of the gap; equal estimates have gap zero. -/
theorem C90_gap_antisymmetric (L : Lapack) (S T : Matrix (Fin p) (Fin p) ℝ) (sizes : List ℕ) (g a b : ℝ) :
    scoreGap L S sizes g T b a = (scoreGap L S sizes g T a b).map (fun d => -d) ∧
    ∀ d, scoreGap L S sizes g T a a = some d → d = 0 := by
  constructor
  · unfold scoreGap
    simp only []
    rw [Bool.and_comm]
    split
    · rw [Option.map_some]
      congr 1
      simp only [snrMu, Matrix.sub_mul, trace_sub]; ring
    · rfl
  · intro d h
    unfold scoreGap at h
    simp only [] at h
    split at h
    · cases h; simp [snrMu]
    · cases h

/-! ## The delta method -/

/-- C90: `_cov_quadform` is what its docstring says: the quadratic form of the sampling covariance
`Cov(S_ij, S_kl) = (Sig_ik Sig_jl + Sig_il Sig_jk)/n`; never negative, and for a positive definite `Sig` zero only at `G = 0`. -/
theorem C90_quadform (G Sig : Matrix (Fin p) (Fin p) ℝ) (hG : Symm G) (hS : Symm Sig) (n : ℝ) :
    covQuadform G Sig n = ∑ i, ∑ j, ∑ k, ∑ l, G i j * ((Sig i k * Sig j l + Sig i l * Sig j k) / n) * G k l ∧
    (PD Sig → 0 < n → 0 ≤ covQuadform G Sig n ∧ (covQuadform G Sig n = 0 ↔ G = 0)) := by
  have e2 : (G * Sig * (G * Sig)).trace = ∑ i, ∑ j, ∑ k, ∑ l, (G i j * G k l) * (Sig i k * Sig j l) := by
    rw [trace]
    refine Finset.sum_congr rfl fun i _ => ?_
    have : (G * Sig * (G * Sig)) i i = ∑ l, ∑ j, ∑ k, (G i j * Sig j l) * (G l k * Sig k i) := by
      rw [mul_apply]
      exact Finset.sum_congr rfl fun l _ => by rw [mul_apply, mul_apply, Finset.sum_mul_sum]
    rw [diag_apply, this, Finset.sum_comm]
    refine Finset.sum_congr rfl fun j _ => ?_
    rw [Finset.sum_comm]
    exact Finset.sum_congr rfl fun k _ => Finset.sum_congr rfl fun l _ => by rw [hG l k, hS k i]; ring
  have e3 : (G * Sig * (G * Sig)).trace = ∑ i, ∑ j, ∑ k, ∑ l, (G i j * G k l) * (Sig i l * Sig j k) := by
    rw [e2]
    refine Finset.sum_congr rfl fun i _ => Finset.sum_congr rfl fun j _ => ?_
    rw [Finset.sum_comm]
    exact Finset.sum_congr rfl fun k _ => Finset.sum_congr rfl fun l _ => by rw [hG l k]
  constructor
  · unfold covQuadform
    have : 2 / n * (G * Sig * (G * Sig)).trace = 1 / n * (G * Sig * (G * Sig)).trace + 1 / n * (G * Sig * (G * Sig)).trace := by ring
    rw [this]
    nth_rewrite 1 [e2]
    rw [e3]
    simp only [Finset.mul_sum, ← Finset.sum_add_distrib]
    refine Finset.sum_congr rfl fun i _ => Finset.sum_congr rfl fun j _ => Finset.sum_congr rfl fun k _ => Finset.sum_congr rfl fun l _ => by ring
  · intro hpd hn
    obtain ⟨h1, h2⟩ := trace_sq_eq hG hpd
    unfold covQuadform
    have hp2 : (0 : ℝ) < 2 / n := by positivity
    refine ⟨mul_nonneg hp2.le h1, ?_⟩
    rw [mul_eq_zero, or_iff_right hp2.ne', h2]

/-! ### The sampling covariance -/

/-- The rows of a drawn sample. -/
def rowsOf {n : ℕ} (x : Fin n × Fin p → ℝ) : List (Fin p → ℝ) := List.ofFn fun r i => x (r, i)

/-- The covariance of `n` independent rows with covariance `T`. -/
def independentRows (n : ℕ) (T : Matrix (Fin p) (Fin p) ℝ) : Matrix (Fin n × Fin p) (Fin n × Fin p) ℝ :=
  Matrix.of fun a b => if a.1 = b.1 then T a.2 b.2 else 0

theorem independentRows_eq (n : ℕ) (T : Matrix (Fin p) (Fin p) ℝ) : independentRows n T = kroneckerMap (· * ·) (1 : Matrix (Fin n) (Fin n) ℝ) T := by
  ext a b
  simp [independentRows, kroneckerMap_apply, one_apply]

theorem sum_rowsOf {n : ℕ} (x : Fin n × Fin p → ℝ) (f : (Fin p → ℝ) → ℝ) : ((rowsOf x).map f).sum = ∑ r, f fun i => x (r, i) := by
  rw [rowsOf, List.map_ofFn, List.sum_ofFn]; rfl

theorem npCov_rowsOf {n : ℕ} (hn : 1 ≤ n) (x : Fin n × Fin p → ℝ) (i j : Fin p) :
    npCov (rowsOf x) i j = ∑ r, ∑ s, ((if r = s then 1 / (n:ℝ) else 0) - 1 / (n:ℝ) ^ 2) * (x (r, i) * x (s, j)) := by
  have hn0 : (n : ℝ) ≠ 0 := by exact_mod_cast Nat.one_le_iff_ne_zero.1 hn
  have hl : ((rowsOf x).length : ℝ) = n := by simp [rowsOf]
  have hm : ∀ i, npMean (rowsOf x) i = (∑ r, x (r, i)) / n := fun i => by
    unfold npMean; rw [hl, sum_rowsOf]
  unfold npCov
  rw [of_apply, hl, sum_rowsOf x fun y => (y i - npMean (rowsOf x) i) * (y j - npMean (rowsOf x) j)]
  simp only [hm]
  have e1 : ∑ r, (x (r, i) - (∑ r, x (r, i)) / n) * (x (r, j) - (∑ r, x (r, j)) / n) =
      ∑ r, x (r, i) * x (r, j) - (∑ r, x (r, i)) * (∑ r, x (r, j)) / n := by
    have : ∀ r, (x (r, i) - (∑ r, x (r, i)) / n) * (x (r, j) - (∑ r, x (r, j)) / n) =
        x (r, i) * x (r, j) - x (r, i) * ((∑ r, x (r, j)) / n) - (∑ r, x (r, i)) / n * x (r, j) + (∑ r, x (r, i)) / n * ((∑ r, x (r, j)) / n) :=
      fun r => by ring
    simp only [this]
    rw [Finset.sum_add_distrib, Finset.sum_sub_distrib, Finset.sum_sub_distrib, ← Finset.sum_mul, ← Finset.mul_sum, Finset.sum_const,
      Finset.card_univ, Fintype.card_fin, nsmul_eq_mul]
    field_simp; ring
  rw [e1]
  have e2 : ∑ r, ∑ s, ((if r = s then 1 / (n:ℝ) else 0) - 1 / (n:ℝ) ^ 2) * (x (r, i) * x (s, j)) =
      1 / n * ∑ r, x (r, i) * x (r, j) - 1 / (n:ℝ) ^ 2 * ((∑ r, x (r, i)) * ∑ s, x (s, j)) := by
    rw [Finset.sum_mul_sum, Finset.mul_sum, Finset.mul_sum, ← Finset.sum_sub_distrib]
    refine Finset.sum_congr rfl fun r _ => ?_
    simp only [sub_mul, Finset.sum_sub_distrib, ite_mul, zero_mul, Finset.sum_ite_eq, Finset.mem_univ, if_true]
    rw [Finset.mul_sum]
  rw [e2]
  field_simp

/-- the matrix of the quadratic form `<G, S>` in all the observations -/
theorem inner_eq_quad {n : ℕ} (G : Matrix (Fin p) (Fin p) ℝ) (c : Matrix (Fin n) (Fin n) ℝ) (x : Fin n × Fin p → ℝ) :
    ∑ i, ∑ j, G i j * ∑ r, ∑ s, c r s * (x (r, i) * x (s, j)) = quad (kroneckerMap (· * ·) c G) x := by
  rw [quad_expand, Fintype.sum_prod_type]
  simp only [Fintype.sum_prod_type, kroneckerMap_apply]
  simp only [Finset.mul_sum]
  have : ∀ i, ∑ j, ∑ r, ∑ s, G i j * (c r s * (x (r, i) * x (s, j))) = ∑ r, ∑ j, ∑ s, G i j * (c r s * (x (r, i) * x (s, j))) :=
    fun i => Finset.sum_comm
  simp only [this]
  rw [Finset.sum_comm]
  refine Finset.sum_congr rfl fun r _ => Finset.sum_congr rfl fun i _ => ?_
  rw [Finset.sum_comm]
  refine Finset.sum_congr rfl fun s _ => Finset.sum_congr rfl fun j _ => by ring

theorem moments_of_weights {n : ℕ} (c : Matrix (Fin n) (Fin n) ℝ) (hc : Symm c) (G T : Matrix (Fin p) (Fin p) ℝ) (hG : Symm G) (hT : Symm T)
    (E : ((Fin n × Fin p → ℝ) → ℝ) →ₗ[ℝ] ℝ) (hE : GaussMoments E (independentRows n T)) :
    E (fun x => quad (kroneckerMap (· * ·) c G) x) = c.trace * (G * T).trace ∧
    E (fun x => (quad (kroneckerMap (· * ·) c G) x - c.trace * (G * T).trace) ^ 2) = 2 * (c * c).trace * (G * T * (G * T)).trace := by
  have hK : Symm (kroneckerMap (· * ·) c G) := fun a b => by simp only [kroneckerMap_apply]; rw [hc a.1 b.1, hG a.2 b.2]
  have hI : Symm (independentRows n T) := fun a b => by
    simp only [independentRows, of_apply]
    by_cases h : a.1 = b.1
    · rw [if_pos h, if_pos h.symm, hT]
    · rw [if_neg h, if_neg (Ne.symm h)]
  have hm : kroneckerMap (· * ·) c G * independentRows n T = kroneckerMap (· * ·) c (G * T) := by
    rw [independentRows_eq]
    have := mul_kronecker_mul c (1 : Matrix (Fin n) (Fin n) ℝ) G T
    rw [Matrix.mul_one] at this
    exact this.symm
  have hm2 : kroneckerMap (· * ·) c (G * T) * kroneckerMap (· * ·) c (G * T) = kroneckerMap (· * ·) (c * c) (G * T * (G * T)) :=
    (mul_kronecker_mul c c (G * T) (G * T)).symm
  have t1 : (kroneckerMap (· * ·) c (G * T)).trace = c.trace * (G * T).trace := trace_kronecker c (G * T)
  have t2 : (kroneckerMap (· * ·) (c * c) (G * T * (G * T))).trace = (c * c).trace * (G * T * (G * T)).trace := trace_kronecker _ _
  have h1 := E_quad hE hI (kroneckerMap (· * ·) c G)
  have h2 := E_quad_sq hE hI hK
  rw [hm, t1] at h1
  rw [hm, hm2, t1, t2] at h2
  refine ⟨h1, ?_⟩
  have : (fun x : Fin n × Fin p → ℝ => (quad (kroneckerMap (· * ·) c G) x - c.trace * (G * T).trace) ^ 2) =
      (fun x => quad (kroneckerMap (· * ·) c G) x * quad (kroneckerMap (· * ·) c G) x) -
      (2 * (c.trace * (G * T).trace)) • (fun x => quad (kroneckerMap (· * ·) c G) x) + ((c.trace * (G * T).trace) ^ 2) • fun _ => (1:ℝ) := by
    funext x
    simp only [Pi.add_apply, Pi.sub_apply, Pi.smul_apply, smul_eq_mul]; ring
  rw [this, map_add, map_sub, map_smul, map_smul, hE.total, h1, h2]
  simp only [smul_eq_mul]; ring

/-- C90: the sampling moments of `<G, S>` for `n` Gaussian rows with covariance `Sig`. For the covariance about zero, `_cov_quadform` is the
variance. For `S = np.cov(X, bias=True)`, which the experiment uses, the mean is `(1 - 1/n) <G, Sig>` and the variance is
`(1 - 1/n)` times `_cov_quadform`: the formula in the docstring is off by the factor `n/(n-1)`. -/
theorem C90_variance {n : ℕ} (hn : 1 ≤ n) (G T : Matrix (Fin p) (Fin p) ℝ) (hG : Symm G) (hT : Symm T)
    (E : ((Fin n × Fin p → ℝ) → ℝ) →ₗ[ℝ] ℝ) (hE : GaussMoments E (independentRows n T)) :
    E (fun x => ∑ i, ∑ j, G i j * secondMoment (rowsOf x) i j) = ∑ i, ∑ j, G i j * T i j ∧
    E (fun x => (∑ i, ∑ j, G i j * secondMoment (rowsOf x) i j - ∑ i, ∑ j, G i j * T i j) ^ 2) = covQuadform G T n ∧
    E (fun x => ∑ i, ∑ j, G i j * npCov (rowsOf x) i j) = (1 - 1 / n) * ∑ i, ∑ j, G i j * T i j ∧
    E (fun x => (∑ i, ∑ j, G i j * npCov (rowsOf x) i j - (1 - 1 / n) * ∑ i, ∑ j, G i j * T i j) ^ 2) = (1 - 1 / n) * covQuadform G T n := by
  have hn0 : (n : ℝ) ≠ 0 := by exact_mod_cast Nat.one_le_iff_ne_zero.1 hn
  have htr : (G * T).trace = ∑ i, ∑ j, G i j * T i j := by
    rw [trace]
    exact Finset.sum_congr rfl fun i _ => by rw [diag_apply, mul_apply]; exact Finset.sum_congr rfl fun j _ => by rw [hT j i]
  -- about zero
  let c0 : Matrix (Fin n) (Fin n) ℝ := (1 / (n:ℝ)) • 1
  have hc0 : Symm c0 := fun r s => by simp only [c0, Matrix.smul_apply, one_apply, smul_eq_mul]; simp only [eq_comm]
  have e0 : ∀ x : Fin n × Fin p → ℝ, ∑ i, ∑ j, G i j * secondMoment (rowsOf x) i j = quad (kroneckerMap (· * ·) c0 G) x := by
    intro x
    rw [← inner_eq_quad]
    refine Finset.sum_congr rfl fun i _ => Finset.sum_congr rfl fun j _ => ?_
    congr 1
    simp only [secondMoment, of_apply, c0, Matrix.smul_apply, one_apply, smul_eq_mul]
    rw [sum_rowsOf x fun y => y i * y j]
    simp only [mul_ite, mul_one, mul_zero, ite_mul, zero_mul, Finset.sum_ite_eq, Finset.mem_univ, if_true]
    rw [← Finset.mul_sum]
    simp [rowsOf]; ring
  have t0 : c0.trace = 1 := by simp [c0, hn0]
  have t0' : (c0 * c0).trace = 1 / n := by simp [c0, hn0]
  obtain ⟨a1, a2⟩ := moments_of_weights c0 hc0 G T hG hT E hE
  rw [t0, one_mul, htr] at a1 a2
  rw [t0'] at a2
  -- about the mean
  let c : Matrix (Fin n) (Fin n) ℝ := Matrix.of fun r s => (if r = s then 1 / (n:ℝ) else 0) - 1 / (n:ℝ) ^ 2
  have hc : Symm c := fun r s => by simp only [c, of_apply, eq_comm]
  have e1 : ∀ x : Fin n × Fin p → ℝ, ∑ i, ∑ j, G i j * npCov (rowsOf x) i j = quad (kroneckerMap (· * ·) c G) x := by
    intro x
    rw [← inner_eq_quad]
    exact Finset.sum_congr rfl fun i _ => Finset.sum_congr rfl fun j _ => by rw [npCov_rowsOf hn]; rfl
  have t1 : c.trace = 1 - 1 / n := by
    simp only [c, trace, diag_apply, of_apply, if_true, Finset.sum_const, Finset.card_univ, Fintype.card_fin, nsmul_eq_mul]
    field_simp
  have t1' : (c * c).trace = (1 - 1 / n) / n := by
    have hcc : c * c = (1 / (n:ℝ)) • c := by
      ext r s
      rw [mul_apply, Matrix.smul_apply, smul_eq_mul]
      simp only [c, of_apply, sub_mul, mul_sub, Finset.sum_sub_distrib, ite_mul, mul_ite, zero_mul, mul_zero, Finset.sum_ite_eq, Finset.sum_ite_eq',
        Finset.mem_univ, if_true, Finset.sum_const, Finset.card_univ, Fintype.card_fin, nsmul_eq_mul]
      split <;> field_simp <;> ring
    rw [hcc, trace_smul, t1, smul_eq_mul]; ring
  obtain ⟨b1, b2⟩ := moments_of_weights c hc G T hG hT E hE
  rw [t1, htr] at b1 b2
  rw [t1'] at b2
  refine ⟨?_, ?_, ?_, ?_⟩
  · simp only [e0]; exact a1
  · simp only [e0]; rw [a2, covQuadform]; ring
  · simp only [e1]; exact b1
  · simp only [e1]; rw [b2, covQuadform]; ring

/-! ### The gradient -/

theorem shrinkIso_add {S E : Matrix (Fin p) (Fin p) ℝ} (hS : Symm S) (hE : Symm E) (a t : ℝ) :
    shrinkIso (S + t • E) a = shrinkIso S a + t • shrinkIso E a := by
  rw [shrinkIso_symm (hS.add (hE.smul t)), shrinkIso_symm hS, shrinkIso_symm hE, trace_add, trace_smul]
  ext i j
  simp only [Matrix.add_apply, Matrix.smul_apply, smul_eq_mul, one_apply]
  ring

theorem abs_quad_le {ι : Type} [Fintype ι] (M : Matrix ι ι ℝ) (x : ι → ℝ) : |quad M x| ≤ (∑ i, ∑ j, |M i j|) * normSq x := by
  rw [quad_expand, Finset.sum_mul]
  refine (Finset.abs_sum_le_sum_abs _ _).trans (Finset.sum_le_sum fun i _ => ?_)
  rw [Finset.sum_mul]
  refine (Finset.abs_sum_le_sum_abs _ _).trans (Finset.sum_le_sum fun j _ => ?_)
  have hle : ∀ k, x k * x k ≤ normSq x := fun k => Finset.single_le_sum (f := fun i => x i * x i) (fun i _ => mul_self_nonneg _) (Finset.mem_univ k)
  have h2 : |x i * x j| ≤ normSq x := by
    rw [abs_le]; constructor <;> nlinarith [hle i, hle j, sq_nonneg (x i + x j), sq_nonneg (x i - x j)]
  have : |x i * M i j * x j| = |M i j| * |x i * x j| := by rw [abs_mul, abs_mul, abs_mul]; ring
  have h3 : |M i j| * |x i * x j| ≤ |M i j| * normSq x := mul_le_mul_of_nonneg_left h2 (abs_nonneg _)
  first
  | (rw [this]; exact h3)
  | (refine le_trans (le_of_eq ?_) h3; simp only [abs_mul]; ring)

/-- near `S` the shrunk estimates stay away from singular -/
theorem minEig_near {A E : Matrix (Fin p) (Fin p) ℝ} {c c' : ℝ} (hc : c' < c) (h : MinEigGE A c) : ∀ᶠ t : ℝ in nhds 0, MinEigGE (A + t • E) c' := by
  set K := ∑ i, ∑ j, |E i j| with hK
  have hcont : Continuous fun t : ℝ => c - |t| * K := by fun_prop
  have hev : ∀ᶠ t : ℝ in nhds 0, c' < c - |t| * K :=
    hcont.continuousAt.eventually (by simpa using lt_mem_nhds hc)
  filter_upwards [hev] with t ht x
  rw [quad_add, quad_smul]
  have h1 := h x
  have h2 : -(|t| * (K * normSq x)) ≤ t * quad E x := by
    have := abs_mul t (quad E x)
    have h3 : |t| * |quad E x| ≤ |t| * (K * normSq x) := mul_le_mul_of_nonneg_left (abs_quad_le E x) (abs_nonneg t)
    have h4 := neg_abs_le (t * quad E x)
    linarith
  have h5 : c' * normSq x ≤ (c - |t| * K) * normSq x := mul_le_mul_of_nonneg_right ht.le (normSq_nonneg x)
  nlinarith

theorem pd_of_minEig {M : Matrix (Fin p) (Fin p) ℝ} (hM : Symm M) {c : ℝ} (hc : 0 < c) (h : MinEigGE M c) : PD M :=
  ⟨hM, fun x hx => lt_of_lt_of_le (mul_pos hc (normSq_pos hx)) (h x)⟩

theorem symm_shrinkIso (S : Matrix (Fin p) (Fin p) ℝ) (a : ℝ) : Symm (shrinkIso S a) := symm_toSymmetric _

/-- The gradient of the score gap at `gamma = 1` with respect to the sample covariance. -/
noncomputable def gapGradient (S T : Matrix (Fin p) (Fin p) ℝ) (a b : ℝ) : Matrix (Fin p) (Fin p) ℝ :=
  let H := fun c => (1 / 2 : ℝ) • ((shrinkIso S c)⁻¹ - (shrinkIso S c)⁻¹ * T * (shrinkIso S c)⁻¹)
  shrinkIso (H b) b - shrinkIso (H a) a

theorem trace_mul_shrinkIso {H E : Matrix (Fin p) (Fin p) ℝ} (hH : Symm H) (hE : Symm E) (a : ℝ) :
    (H * shrinkIso E a).trace = ∑ i, ∑ j, shrinkIso H a i j * E i j := by
  rw [shrinkIso_symm hE, shrinkIso_symm hH, Matrix.mul_add, Matrix.mul_smul, Matrix.mul_smul, Matrix.mul_one, trace_add, trace_smul, trace_smul]
  simp only [Matrix.add_apply, Matrix.smul_apply, smul_eq_mul, one_apply, add_mul, Finset.sum_add_distrib]
  have h1 : (H * E).trace = ∑ i, ∑ j, H i j * E i j := by
    rw [trace]
    exact Finset.sum_congr rfl fun i _ => by rw [diag_apply, mul_apply]; exact Finset.sum_congr rfl fun j _ => by rw [hE j i]
  have h2 : ∑ i, ∑ j, a * (H.trace / p) * (if i = j then 1 else 0) * E i j = a * (H.trace / p) * E.trace := by
    simp only [mul_ite, mul_one, mul_zero, ite_mul, zero_mul, Finset.sum_ite_eq, Finset.mem_univ, if_true]
    rw [← Finset.mul_sum]; rfl
  rw [h2, h1]
  simp only [Finset.mul_sum, mul_assoc]
  congr 1; ring

/-- the score gap along a symmetric direction -/
theorem gap_along (L : Lapack) (S T E : Matrix (Fin p) (Fin p) ℝ) (hS : Symm S) (hT : Symm T) (hE : Symm E) (sizes : List ℕ) (hs : sizes.sum = p) {a b c : ℝ}
    (hc : 1 / 10 ^ 9 < c) (hA : MinEigGE (shrinkIso S a) c) (hB : MinEigGE (shrinkIso S b) c) :
    (∀ᶠ t : ℝ in nhds 0, scoreGap L (S + t • E) sizes 1 T a b =
      some (kl (shrinkIso S b + t • shrinkIso E b) T - kl (shrinkIso S a + t • shrinkIso E a) T)) ∧
    HasDerivAt (fun t : ℝ => kl (shrinkIso S b + t • shrinkIso E b) T - kl (shrinkIso S a + t • shrinkIso E a) T)
      (∑ i, ∑ j, gapGradient S T a b i j * E i j) 0 := by
  have h0 : (0:ℝ) < 1 / 10 ^ 9 := by positivity
  obtain ⟨c', h1, h2⟩ := exists_between hc
  have key : ∀ q, MinEigGE (shrinkIso S q) c → HasDerivAt (fun t : ℝ => kl (shrinkIso S q + t • shrinkIso E q) T)
      (∑ i, ∑ j, shrinkIso ((1 / 2 : ℝ) • ((shrinkIso S q)⁻¹ - (shrinkIso S q)⁻¹ * T * (shrinkIso S q)⁻¹)) q i j * E i j) 0 := by
    intro q hq
    have hpd := pd_of_minEig (symm_shrinkIso S q) (h0.trans hc) hq
    have hsym : Symm ((1 / 2 : ℝ) • ((shrinkIso S q)⁻¹ - (shrinkIso S q)⁻¹ * T * (shrinkIso S q)⁻¹)) := by
      refine Symm.smul _ (hpd.inv.1.sub ?_)
      have := hT.congr (shrinkIso S q)⁻¹
      rwa [hpd.inv.1.transpose] at this
    refine (kl_hasDerivAt hpd (symm_shrinkIso E q) T).congr_deriv ?_
    rw [← trace_mul_shrinkIso hsym hE, Matrix.smul_mul, trace_smul, smul_eq_mul]
  constructor
  · filter_upwards [minEig_near (E := shrinkIso E a) h2 hA, minEig_near (E := shrinkIso E b) h2 hB] with t ta tb
    rw [← shrinkIso_add hS hE] at ta tb
    rw [← shrinkIso_add hS hE, ← shrinkIso_add hS hE]
    unfold scoreGap
    simp only [isSpd_of_minEig L h1 ta, isSpd_of_minEig L h1 tb, Bool.and_self, if_true]
    rw [C72_mu_kl _ _ T (pd_of_minEig (symm_shrinkIso _ _) (h0.trans h1) ta) (pd_of_minEig (symm_shrinkIso _ _) (h0.trans h1) tb) sizes hs]
  · refine ((key b hB).sub (key a hA)).congr_deriv ?_
    unfold gapGradient
    simp only [Matrix.sub_apply, sub_mul, Finset.sum_sub_distrib]

theorem central_difference {F : ℝ → ℝ} {d : ℝ} (h : HasDerivAt F d 0) :
    Filter.Tendsto (fun h => (F h - F (-h)) / (2 * h)) (nhdsWithin 0 {0}ᶜ) (nhds d) := by
  have h1 := hasDerivAt_iff_tendsto_slope.1 h
  have hneg : Filter.Tendsto (fun t : ℝ => -t) (nhdsWithin 0 {0}ᶜ) (nhdsWithin 0 {0}ᶜ) := by
    refine tendsto_nhdsWithin_iff.2 ⟨?_, ?_⟩
    · have : Filter.Tendsto (fun t : ℝ => -t) (nhds 0) (nhds 0) := by simpa using (continuous_neg (G := ℝ)).tendsto 0
      exact this.mono_left nhdsWithin_le_nhds
    · filter_upwards [self_mem_nhdsWithin] with t ht
      simpa using ht
  have h2 := (h1.add (h1.comp hneg)).const_mul (1 / 2 : ℝ)
  have : 1 / 2 * (d + d) = d := by ring
  rw [this] at h2
  refine h2.congr' ?_
  filter_upwards [self_mem_nhdsWithin] with t ht
  have ht' : t ≠ 0 := ht
  simp only [slope_def_field, Function.comp_apply, sub_zero, div_neg]
  field_simp; ring

theorem symm_symUnit (i j : Fin p) : Symm (symUnit i j) := fun k l => by
  simp only [symUnit, of_apply]
  congr 1
  exact propext ⟨fun h => h.symm.imp (fun h => ⟨h.2, h.1⟩) (fun h => ⟨h.2, h.1⟩), fun h => h.symm.imp (fun h => ⟨h.2, h.1⟩) (fun h => ⟨h.2, h.1⟩)⟩

theorem sum_symUnit {C : Matrix (Fin p) (Fin p) ℝ} (hC : Symm C) (i j : Fin p) :
    ∑ k, ∑ l, C k l * symUnit i j k l = (if i = j then 1 else 2) * C i j := by
  have h : ∀ k l, symUnit i j k l = (if k = i then (if l = j then 1 else 0) else 0) + (if i = j then 0 else if k = j then (if l = i then 1 else 0) else 0) := by
    intro k l
    simp only [symUnit, of_apply]
    by_cases hij : i = j
    · subst hij; by_cases h1 : k = i <;> by_cases h2 : l = i <;> simp [h1, h2]
    · by_cases h1 : k = i <;> by_cases h2 : l = j <;> by_cases h3 : k = j <;> by_cases h4 : l = i <;> simp_all
  simp only [h, mul_add, Finset.sum_add_distrib, mul_ite, mul_one, mul_zero]
  by_cases hij : i = j
  · subst hij; simp
  · simp [hij]; rw [hC j i]; ring

/-- C90 (finding): what `_grad_score_gap` computes, at `gamma = 1`, where the gap is a difference of divergences. `gapGradient` is the gradient
(the derivative of the gap in every symmetric direction `E` is `<gapGradient, E>`, and it is symmetric). As the step goes to zero the returned
matrix tends to its diagonal, but to *twice* its entries off the diagonal: each off-diagonal entry is moved in both places, and the result is
written in both places. -/
theorem C90_gradient (L : Lapack) (S T : Matrix (Fin p) (Fin p) ℝ) (hS : Symm S) (hT : Symm T) (sizes : List ℕ) (hs : sizes.sum = p) (a b c : ℝ)
    (hc : 1 / 10 ^ 9 < c) (hA : MinEigGE (shrinkIso S a) c) (hB : MinEigGE (shrinkIso S b) c) :
    Symm (gapGradient S T a b) ∧
    (∀ E, Symm E → ∃ F : ℝ → ℝ, (∀ᶠ t : ℝ in nhds 0, scoreGap L (S + t • E) sizes 1 T a b = some (F t)) ∧
      HasDerivAt F (∑ i, ∑ j, gapGradient S T a b i j * E i j) 0) ∧
    (∀ i j, (∀ᶠ h in nhdsWithin (0:ℝ) {0}ᶜ, (gradScoreGap L S sizes 1 T a b h i j).isSome) ∧
      Filter.Tendsto (fun h => (gradScoreGap L S sizes 1 T a b h i j).getD 0) (nhdsWithin 0 {0}ᶜ)
        (nhds ((if i = j then 1 else 2) * gapGradient S T a b i j))) := by
  have hsym : Symm (gapGradient S T a b) := (symm_shrinkIso _ _).sub (symm_shrinkIso _ _)
  refine ⟨hsym, fun E hE => ⟨_, gap_along L S T E hS hT hE sizes hs hc hA hB⟩, ?_⟩
  have core : ∀ i j, (∀ᶠ h in nhdsWithin (0:ℝ) {0}ᶜ, (quotient (fun S => scoreGap L S sizes 1 T a b) S h i j).isSome) ∧
      Filter.Tendsto (fun h => (quotient (fun S => scoreGap L S sizes 1 T a b) S h i j).getD 0) (nhdsWithin 0 {0}ᶜ)
        (nhds ((if i = j then 1 else 2) * gapGradient S T a b i j)) := by
    intro i j
    obtain ⟨h1, h2⟩ := gap_along L S T (symUnit i j) hS hT (symm_symUnit i j) sizes hs hc hA hB
    rw [sum_symUnit hsym] at h2
    set F : ℝ → ℝ := fun t => kl (shrinkIso S b + t • shrinkIso (symUnit i j) b) T - kl (shrinkIso S a + t • shrinkIso (symUnit i j) a) T with hF
    have hneg : Filter.Tendsto (fun t : ℝ => -t) (nhds 0) (nhds 0) := by simpa using (continuous_neg (G := ℝ)).tendsto 0
    have h3 := hneg.eventually h1
    have hq : ∀ᶠ h in nhdsWithin (0:ℝ) {0}ᶜ, quotient (fun S => scoreGap L S sizes 1 T a b) S h i j = some ((F h - F (-h)) / (2 * h)) := by
      filter_upwards [nhdsWithin_le_nhds h1, nhdsWithin_le_nhds h3] with h e1 e2
      have e3 : S - h • symUnit i j = S + (-h) • symUnit i j := by rw [neg_smul, sub_eq_add_neg]
      unfold quotient
      simp only [e3, e1, e2]
      rfl
    refine ⟨hq.mono fun h e => by rw [e]; rfl, (central_difference h2).congr' ?_⟩
    filter_upwards [hq] with h e
    rw [e]; rfl
  intro i j
  unfold gradScoreGap gradMatrix
  simp only [of_apply]
  by_cases hij : i ≤ j
  · simp only [hij, if_true]; exact core i j
  · simp only [hij, if_false]
    have := core j i
    rw [hsym j i] at this
    simpa only [eq_comm] using this

/-- C90 (finding): so in `snr_delta` the off-diagonal part of the gradient counts four times. For uncorrelated variables with variances `s`,
`_cov_quadform` of the returned matrix exceeds that of the gradient by three times its off-diagonal part. -/
theorem C90_off_diagonal_counts_four (C : Matrix (Fin p) (Fin p) ℝ) (hC : Symm C) (s : Fin p → ℝ) (n : ℝ) :
    covQuadform C (diagonal s) n = 2 / n * ∑ i, ∑ j, s i * s j * C i j ^ 2 ∧
    covQuadform (Matrix.of fun i j => (if i = j then 1 else 2) * C i j) (diagonal s) n =
      2 / n * (∑ i, (s i * C i i) ^ 2 + 4 * ∑ i, ∑ j, if i = j then 0 else s i * s j * C i j ^ 2) := by
  have gen : ∀ G : Matrix (Fin p) (Fin p) ℝ, Symm G → covQuadform G (diagonal s) n = 2 / n * ∑ i, ∑ j, s i * s j * G i j ^ 2 := by
    intro G hG
    unfold covQuadform
    congr 1
    rw [trace]
    refine Finset.sum_congr rfl fun i _ => ?_
    rw [diag_apply, mul_apply]
    exact Finset.sum_congr rfl fun j _ => by rw [mul_diagonal, mul_diagonal, hG j i]; ring
  refine ⟨gen C hC, ?_⟩
  rw [gen]
  · congr 1
    rw [Finset.mul_sum, ← Finset.sum_add_distrib]
    refine Finset.sum_congr rfl fun i _ => ?_
    rw [Finset.mul_sum, ← Finset.add_sum_erase _ _ (Finset.mem_univ i)]
    conv_rhs => rw [← Finset.add_sum_erase _ _ (Finset.mem_univ i)]
    simp only [of_apply, if_true, mul_zero, zero_add]
    congr 1
    · ring
    · refine Finset.sum_congr rfl fun j hj => ?_
      have hne : i ≠ j := fun h => (Finset.mem_erase.1 hj).1 h.symm
      simp only [if_neg hne]; ring
  · intro i j
    simp only [of_apply, hC i j, eq_comm]

/-! ### The reported numbers -/

theorem std?_eq {v : List ℝ} (hv : v ≠ []) :
    std? v = some (Real.sqrt ((v.map fun x => (x - v.sum / v.length) ^ 2).sum / v.length)) := by
  unfold std? mean?
  rw [if_neg hv]
  simp [hv]

theorem sumsq_eq_zero {v : List ℝ} {m : ℝ} : (v.map fun x => (x - m) ^ 2).sum = 0 ↔ ∀ x ∈ v, x = m := by
  induction v with
  | nil => simp
  | cons a v ih =>
    have hnn : 0 ≤ (v.map fun x => (x - m) ^ 2).sum := List.sum_nonneg (by simp; intro x _; positivity)
    rw [List.map_cons, List.sum_cons, List.forall_mem_cons, ← ih]
    constructor
    · intro h
      have h1 : (a - m) ^ 2 = 0 := by have := sq_nonneg (a - m); linarith
      exact ⟨by have := pow_eq_zero_iff (two_ne_zero) |>.1 h1; linarith, by linarith⟩
    · rintro ⟨h1, h2⟩; rw [h1, h2]; simp

theorem sumsq_nonneg (v : List ℝ) (m : ℝ) : 0 ≤ (v.map fun x => (x - m) ^ 2).sum := List.sum_nonneg (by simp; intro x _; positivity)

/-- C90: the reported triple. Two different gaps: `(mean, sd, mean/sd)` with `sd > 0`. All gaps equal: `(c, 0, inf)`, whatever the sign of `c`
(finding: gaps all zero or all negative are reported with the SNR of a perfect judge). No draw: `(nan, nan, inf)`. -/
theorem C90_summary (v : List ℝ) :
    (∀ x ∈ v, ∀ y ∈ v, x ≠ y → ∃ m s : ℝ, summary v = (some m, some s, some ((m / s : ℝ) : WithTop ℝ)) ∧ 0 < s ∧
      m * v.length = v.sum ∧ s ^ 2 * v.length = (v.map fun z => (z - m) ^ 2).sum) ∧
    (∀ c, v ≠ [] → (∀ x ∈ v, x = c) → summary v = (some c, some 0, some ⊤)) ∧
    (v = [] → summary v = (none, none, some ⊤)) := by
  refine ⟨fun x hx y hy hxy => ?_, fun c hv hc => ?_, ?_⟩
  · have hv : v ≠ [] := List.ne_nil_of_mem hx
    have hl : (0:ℝ) < v.length := by exact_mod_cast List.length_pos_iff.2 hv
    have hpos : 0 < (v.map fun x => (x - v.sum / v.length) ^ 2).sum := by
      refine lt_of_le_of_ne (sumsq_nonneg _ _) fun h => hxy ?_
      have := sumsq_eq_zero.1 h.symm
      rw [this x hx, this y hy]
    have hs : 0 < Real.sqrt ((v.map fun x => (x - v.sum / v.length) ^ 2).sum / v.length) := Real.sqrt_pos.2 (div_pos hpos hl)
    refine ⟨_, _, ?_, hs, div_mul_cancel₀ _ hl.ne', ?_⟩
    · unfold summary
      rw [std?_eq hv]
      simp only [mean?, if_neg hv, if_pos hs]
    · rw [Real.sq_sqrt (div_pos hpos hl).le, div_mul_cancel₀ _ hl.ne']
  · have hl : (v.length : ℝ) ≠ 0 := by exact_mod_cast (List.length_pos_iff.2 hv).ne'
    have hm : v.sum / v.length = c := by
      rw [List.eq_replicate_of_mem hc]; simp [List.sum_replicate, hl]
    have hz : (v.map fun x => (x - v.sum / v.length) ^ 2).sum = 0 := sumsq_eq_zero.2 fun x hx => by rw [hm, hc x hx]
    unfold summary
    rw [std?_eq hv, hz]
    simp only [mean?, if_neg hv, hm, zero_div, Real.sqrt_zero, lt_irrefl, if_false]
  · rintro rfl
    simp [summary, mean?, std?]

/-- C90 (finding): with equal intensities the two estimates are the same and every gap is zero, but both methods report an SNR of `inf`, for
every truth and all draws. -/
theorem C90_equal_intensities (L : Lapack) (T : Matrix (Fin p) (Fin p) ℝ) (sizes : List ℕ) (g a n : ℝ) (draws : List (List (Fin p → ℝ))) :
    (snrDelta L n sizes g a a T).2.2 = some ⊤ ∧ (snrDraws L draws sizes g a a T).2.2 = some ⊤ := by
  have hz : ∀ S : Matrix (Fin p) (Fin p) ℝ, ∀ d, scoreGap L S sizes g T a a = some d → d = 0 := fun S => (C90_gap_antisymmetric L S T sizes g a a).2
  have hq : ∀ (h : ℝ) i j, (quotient (fun S => scoreGap L S sizes g T a a) T h i j).getD 0 = 0 := by
    intro h i j
    unfold quotient
    cases h1 : scoreGap L (T + h • symUnit i j) sizes g T a a with
    | none => simp only [h1]; rfl
    | some x =>
      cases h2 : scoreGap L (T - h • symUnit i j) sizes g T a a with
      | none => simp only [h1, h2]; rfl
      | some y => simp only [h1, h2]; rw [hz _ _ h1, hz _ _ h2]; simp
  constructor
  · unfold snrDelta
    simp only []
    have hG : (Matrix.of fun i j => (gradScoreGap L T sizes g T a a (1 / 10 ^ 5) i j).getD 0) = (0 : Matrix (Fin p) (Fin p) ℝ) := by
      ext i j
      simp only [gradScoreGap, gradMatrix, of_apply, Matrix.zero_apply]
      split <;> exact hq _ _ _
    rw [hG]
    have h0 : covQuadform (0 : Matrix (Fin p) (Fin p) ℝ) T n = 0 := by simp [covQuadform]
    rw [h0]
    split
    · rename_i v hv
      split at hv
      · cases hv; simp
      · cases hv
    · rfl
  · unfold snrDraws
    set v := draws.filterMap fun X => scoreGap L (npCov X) sizes g T a a with hv
    have hall : ∀ x ∈ v, x = 0 := by
      intro x hx
      obtain ⟨X, -, hX⟩ := List.mem_filterMap.1 hx
      exact hz _ _ hX
    by_cases h : v = []
    · rw [(C90_summary v).2.2 h]
    · rw [(C90_summary v).2.1 0 h hall]

/-! ### Non-vacuity -/

/-- two independent rows of one standard variable: a finite law with the Gaussian second and fourth moments -/
noncomputable def twoRows : ((Fin 2 × Fin 1 → ℝ) → ℝ) →ₗ[ℝ] ℝ :=
  let pt := fun (a b : ℝ) => (LinearMap.proj (R := ℝ) (φ := fun _ : (Fin 2 × Fin 1 → ℝ) => ℝ) fun k : Fin 2 × Fin 1 => if k.1 = 0 then a else b)
  let s := Real.sqrt 3
  (1 / 36 : ℝ) • (pt s s + pt s (-s) + pt (-s) s + pt (-s) (-s)) + (1 / 9 : ℝ) • (pt s 0 + pt (-s) 0 + pt 0 s + pt 0 (-s)) + (4 / 9 : ℝ) • pt 0 0

example : GaussMoments twoRows (independentRows 2 (1 : Matrix (Fin 1) (Fin 1) ℝ)) := by
  have h3 : Real.sqrt 3 * Real.sqrt 3 = 3 := Real.mul_self_sqrt (by norm_num)
  have hf : ∀ k : Fin 2 × Fin 1, k = (0, 0) ∨ k = (1, 0) := by decide
  refine ⟨?_, ?_, ?_⟩
  · simp [twoRows]; norm_num
  · intro i j
    rcases hf i with rfl | rfl <;> rcases hf j with rfl | rfl <;> simp [twoRows, independentRows, h3] <;> norm_num
  · intro i j k l
    rcases hf i with rfl | rfl <;> rcases hf j with rfl | rfl <;> rcases hf k with rfl | rfl <;> rcases hf l with rfl | rfl <;>
      simp [twoRows, independentRows, h3] <;> norm_num

example : Symm (1 : Matrix (Fin 2) (Fin 2) ℝ) ∧ MinEigGE (shrinkIso (1 : Matrix (Fin 2) (Fin 2) ℝ) (1 / 20)) (1 / 2) ∧
    (1 : ℝ) / 10 ^ 9 < 1 / 2 ∧ ([1, 1] : List ℕ).sum = 2 := by
  have hS : Symm (1 : Matrix (Fin 2) (Fin 2) ℝ) := fun i j => by simp only [one_apply, eq_comm]
  refine ⟨hS, ?_, by norm_num, rfl⟩
  have : shrinkIso (1 : Matrix (Fin 2) (Fin 2) ℝ) (1 / 20) = 1 := by
    rw [shrinkIso_symm hS, trace_one, ← add_smul]
    norm_num
  rw [this]
  intro x
  rw [quad_one]
  have := normSq_nonneg x
  linarith

end Precise.Theory
