import Verif.Props.PowerJudges
import Verif.Props.AssessOther
import Verif.Props.AssessBlocks
import Mathlib.Data.Sym.Card
import Mathlib.LinearAlgebra.Dimension.StrongRankCondition
import Mathlib.LinearAlgebra.FiniteDimensional.Basic

/-!
# C80 (continued): the other judges of `research/metric_power.py`
-/

set_option linter.all false

open Matrix MeasureTheory ProbabilityTheory

namespace Precise.Power
open Precise Spec Obj

variable {p : ℕ} (L : Lapack)

/-- C80: the Frobenius judge is never positive, is 0 exactly at the sample covariance of the test rows, and orders by squared distance
to it: it grades against the sample, not the truth. -/
theorem C80_frobenius (c : Matrix (Fin p) (Fin p) ℝ) (xs : List (Fin p → ℝ)) :
    frobenius c xs ≤ 0 ∧ (frobenius c xs = 0 ↔ c = covOf xs) ∧
    (∀ c', frobenius c xs ≤ frobenius c' xs ↔ ∑ i, ∑ j, (c' i j - covOf xs i j) ^ 2 ≤ ∑ i, ∑ j, (c i j - covOf xs i j) ^ 2) := by
  unfold frobenius
  rw [npCov_eq]
  refine ⟨neg_nonpos.2 (frobNorm_nonneg _), ?_, fun c' => ?_⟩
  · rw [neg_eq_zero, frobNorm_eq_zero, sub_eq_zero]
  · rw [neg_le_neg_iff]
    have h0 : ∀ a : Matrix (Fin p) (Fin p) ℝ, 0 ≤ ∑ i, ∑ j, a i j * a i j := fun a =>
      Finset.sum_nonneg fun i _ => Finset.sum_nonneg fun j _ => mul_self_nonneg _
    refine (Real.sqrt_le_sqrt_iff (h0 (c - covOf xs))).trans ?_
    simp only [Matrix.sub_apply, pow_two]

/-- On invertible estimates the Stein judge is the shipped `SteinLoss`. -/
theorem stein_eq {c : Matrix (Fin p) (Fin p) ℝ} (h : c.det ≠ 0) (xs : List (Fin p → ℝ)) : stein c xs = .ok (steinScore L c xs) := by
  unfold stein steinScore tryInvert
  rw [if_neg h, if_neg h]

/-- C80: the Stein judge: never positive on positive definite estimates and 0 exactly at the sample covariance (when that is positive
definite); with `n ≤ p` rows it is `-inf` on every invertible estimate, so that it cannot order any pair. -/
theorem C80_stein (xs : List (Fin p → ℝ)) (hx : xs ≠ []) :
    (∀ c, PD c → PD (covOf xs) → ∃ s : WithBot ℝ, stein c xs = .ok s ∧ s ≤ 0 ∧ (s = 0 ↔ c = covOf xs)) ∧
    (∀ c, c.det = 0 → stein c xs = .error .linAlgError) ∧
    (xs.length ≤ p → ∀ c, c.det ≠ 0 → stein c xs = .ok ⊥) := by
  refine ⟨fun c hc hs => ?_, fun c hc => by unfold stein; rw [if_pos hc], fun hl c hc => ?_⟩
  · obtain ⟨-, h2, h3⟩ := C56_stein_proper Lapack.exact xs hs c hc.psd
    exact ⟨_, stein_eq Lapack.exact hc.det_pos.ne' xs, h2, h3⟩
  · rw [stein_eq Lapack.exact hc, (C56_stein_degenerate Lapack.exact xs hx c).2 hl]

/-- C80: the minimum-variance judge: minus the mean squared return of the portfolio that, among all fully invested ones, has the smallest
variance under the estimate. -/
theorem C80_min_variance (hp : 1 ≤ p) (c : Matrix (Fin p) (Fin p) ℝ) (h : PD c) (xs : List (Fin p → ℝ)) :
    ∃ w : Fin p → ℝ, ∑ i, w i = 1 ∧ (∀ v : Fin p → ℝ, ∑ i, v i = 1 → quad c w ≤ quad c v ∧ (quad c v ≤ quad c w → v = w)) ∧
      minVariance c xs = .ok (-((xs.map fun x => (x ⬝ᵥ w) ^ 2).sum / xs.length)) := by
  obtain ⟨w, h1, h2, h3, h4⟩ := C58_minimum_variance Lapack.exact hp c h xs
  refine ⟨w, h1, fun v hv => ⟨h2 v hv, h3 v hv⟩, ?_⟩
  have : minVariance c xs = .ok (gmvScore Lapack.exact c xs) := by
    unfold minVariance gmvScore gmvWeights
    simp only [if_neg h.det_pos.ne', tryInvert_of_pd _ h]
  rw [this, h4]
  simp only [pow_two]

/-- C80 (finding): the minimum-variance judge cannot see the scale: every non-zero multiple of an estimate scores the same. -/
theorem C80_min_variance_scale {ι : Type} [Fintype ι] [DecidableEq ι] (c : Matrix ι ι ℝ) (k : ℝ) (hk : k ≠ 0) (xs : List (ι → ℝ)) :
    minVariance (k • c) xs = minVariance c xs := by
  unfold minVariance
  have hd : (k • c).det = 0 ↔ c.det = 0 := by rw [det_smul]; simp [hk]
  by_cases h : c.det = 0
  · rw [if_pos h, if_pos (hd.2 h)]
  · rw [if_neg h, if_neg (mt hd.1 h)]
    have hi : (k • c)⁻¹ = k⁻¹ • c⁻¹ := by
      refine inv_eq_left_inv ?_
      rw [smul_mul_smul_comm, inv_mul_cancel₀ hk, nonsing_inv_mul c (isUnit_iff_ne_zero.2 h), one_smul]
    simp only [hi, smul_mulVec, Pi.smul_apply, smul_eq_mul, ← Finset.mul_sum]
    simp only [mul_div_mul_left _ _ (inv_ne_zero hk)]

/-- C80: on average the minimum-variance judge never ranks an estimate above the truth. -/
theorem C80_min_variance_proper {Ω : Type} [MeasurableSpace Ω] {P : Measure Ω} {n : ℕ} {X : Fin n → Ω → Fin p → ℝ}
    {S : Matrix (Fin p) (Fin p) ℝ} (h : TestRows P X S) (hn : 1 ≤ n) (hp : 1 ≤ p) {a : Matrix (Fin p) (Fin p) ℝ} (hS : PD S) (ha : PD a)
    (f g : Ω → ℝ) (hf : ∀ ω, minVariance a (rows X ω) = .ok (f ω)) (hg : ∀ ω, minVariance S (rows X ω) = .ok (g ω)) :
    Integrable f P ∧ Integrable g P ∧ ∫ ω, f ω ∂P ≤ ∫ ω, g ω ∂P := by
  have key : ∀ c : Matrix (Fin p) (Fin p) ℝ, PD c → ∀ s : Ω → ℝ, (∀ ω, minVariance c (rows X ω) = .ok (s ω)) →
      Integrable s P ∧ ∫ ω, s ω ∂P = -quad S (gmvWeights Lapack.exact c) := by
    intro c hc s hs
    set w := gmvWeights Lapack.exact c with hw
    have tr : ∀ M : Matrix (Fin p) (Fin p) ℝ, (vecMulVec w w * M).trace = quad M w := fun M => by
      simp only [trace, diag_apply, mul_apply, vecMulVec_apply, quad, dotProduct, mulVec, Finset.mul_sum]
      rw [Finset.sum_comm]
      refine Finset.sum_congr rfl fun i _ => Finset.sum_congr rfl fun j _ => by ring
    have es : s = fun ω => -(vecMulVec w w * secondMoment (rows X ω)).trace := funext fun ω => by
      have : minVariance c (rows X ω) = .ok (gmvScore Lapack.exact c (rows X ω)) := by
        unfold minVariance gmvScore gmvWeights
        simp only [if_neg hc.det_pos.ne', tryInvert_of_pd _ hc]
      have := Except.ok.inj ((hs ω).symm.trans this)
      rw [this, tr, gmvScore_eq]
    obtain ⟨i1, v1⟩ := rows_moment h hn (vecMulVec w w)
    rw [es]
    refine ⟨i1.neg, ?_⟩
    rw [integral_neg, v1, tr]
  obtain ⟨i1, e1⟩ := key a ha f hf
  obtain ⟨i2, e2⟩ := key S hS g hg
  refine ⟨i1, i2, ?_⟩
  rw [e1, e2]
  exact neg_le_neg (gmv_optimal Lapack.exact hS hp _ (gmv_cov_mul Lapack.exact ha hp).2.1).1

/-- C80 (finding): the Mahalanobis-calibration judge is not proper: it is never positive, and *every* positive definite estimate, however
far from the truth, reaches its best possible score 0 after multiplication by one positive number. -/
theorem C80_maha_calibration {ι : Type} [Fintype ι] [DecidableEq ι] [Nonempty ι] (c : Matrix ι ι ℝ) (hc : PD c) (xs : List (ι → ℝ)) :
    (∃ v, mahalanobisCal c xs = .ok v ∧ v ≤ 0) ∧
    ((∃ x ∈ xs, x ≠ 0) → ∃ k : ℝ, 0 < k ∧ mahalanobisCal (k • c) xs = .ok 0) := by
  have val : ∀ c : Matrix ι ι ℝ, PD c → mahalanobisCal c xs = .ok (-|(xs.map fun x => quad c⁻¹ x).sum / xs.length - Fintype.card ι|) := by
    intro c hc
    unfold mahalanobisCal
    rw [if_neg hc.det_pos.ne']
    simp only [mahaRow_eq]
  refine ⟨⟨_, val c hc, neg_nonpos.2 (abs_nonneg _)⟩, ?_⟩
  rintro ⟨x, hx, hx0⟩
  have hcard : (0:ℝ) < Fintype.card ι := by exact_mod_cast Fintype.card_pos
  have hlen : (0:ℝ) < xs.length := by exact_mod_cast List.length_pos_of_mem hx
  have hpos : 0 < (xs.map fun x => quad c⁻¹ x).sum := by
    refine lt_of_lt_of_le (hc.inv.2 x hx0) ?_
    refine List.single_le_sum (fun y hy => ?_) _ (List.mem_map_of_mem hx)
    obtain ⟨z, _, rfl⟩ := List.mem_map.1 hy
    exact hc.inv.psd.2 z
  set t := (xs.map fun x => quad c⁻¹ x).sum / xs.length with ht
  have ht0 : 0 < t := div_pos hpos hlen
  have hk : 0 < t / Fintype.card ι := div_pos ht0 hcard
  refine ⟨t / Fintype.card ι, hk, ?_⟩
  have hpd : PD ((t / Fintype.card ι) • c) := by
    refine ⟨hc.1.smul _, fun y hy => ?_⟩
    rw [quad_smul]; exact mul_pos hk (hc.2 y hy)
  have hi : ((t / Fintype.card ι : ℝ) • c)⁻¹ = (t / Fintype.card ι : ℝ)⁻¹ • c⁻¹ := by
    refine inv_eq_left_inv ?_
    rw [smul_mul_smul_comm, inv_mul_cancel₀ hk.ne', nonsing_inv_mul c (isUnit_iff_ne_zero.2 hc.det_pos.ne'), one_smul]
  rw [val _ hpd, hi]
  have : (xs.map fun x => quad ((t / Fintype.card ι : ℝ)⁻¹ • c⁻¹) x).sum = (t / Fintype.card ι : ℝ)⁻¹ * (xs.map fun x => quad c⁻¹ x).sum := by
    simp only [quad_smul]
    rw [List.sum_map_mul_left]
  rw [this, mul_div_assoc, ← ht, inv_div, div_mul_cancel₀ _ ht0.ne']
  simp

/-! ### Random projections -/

variable {ι : Type} [Fintype ι] [DecidableEq ι]

/-- C80: the random-projection judge is subspace scoring with one-dimensional subspaces. -/
theorem C80_projection_is_kproj {c : Matrix ι ι ℝ} (hc : PD c) (xs : List (ι → ℝ)) (hx : xs ≠ []) (dirs : List (ι → ℝ))
    (hd : ∀ d ∈ dirs, normSq d = 1) :
    kprojLoglik c xs (dirs.map fun d => (Matrix.of fun (_ : Unit) i => d i)) = .ok (randomProjection c xs dirs) := by
  have hl : (xs.length : ℝ) ≠ 0 := by simpa using hx
  have hq : ∀ d : ι → ℝ, (∑ i, ∑ j, d i * c i j * d j) = quad c d := fun d => by
    simp only [quad, dotProduct, mulVec, Finset.mul_sum]
    exact Finset.sum_congr rfl fun i _ => Finset.sum_congr rfl fun j _ => by ring
  let v : Matrix Unit ι ℝ → ℝ := fun W =>
    (xs.map fun x => -(1/2) * Real.log (quad c (W ())) - (1/2) * (∑ i, x i * W () i) ^ 2 / quad c (W ())).sum / xs.length
  rw [kproj_ok c xs v]
  · congr 1
    unfold randomProjection
    simp only [hq, List.map_map, List.length_map]
    rw [← div_div]
    congr 1
    have hv : (dirs.map (v ∘ fun d => (Matrix.of fun (_ : Unit) i => d i))).sum = (dirs.map fun d =>
        (xs.map fun x => -(1/2) * Real.log (quad c d) - (1/2) * (∑ i, x i * d i) ^ 2 / quad c d).sum).sum / xs.length := by
      rw [div_eq_mul_inv, ← List.sum_map_mul_right]
      rfl
    rw [hv]
    congr 1
    induction dirs with
    | nil => simp
    | cons d dirs ih =>
      have := ih (fun e he => hd e (by simp [he]))
      simp only [List.map_cons, List.sum_cons]
      rw [List.sum_map_add, this ?_]
      rw [div_eq_mul_inv, ← List.sum_map_mul_right]
      rfl
  · intro W hW
    obtain ⟨d, hdm, rfl⟩ := List.mem_map.1 hW
    have hd0 : d ≠ 0 := fun h0 => by have := hd d hdm; rw [h0] at this; simp [normSq] at this
    have hpos := hc.2 d hd0
    set m : Matrix Unit Unit ℝ := (Matrix.of fun (_ : Unit) i => d i) * c * (Matrix.of fun (_ : Unit) i => d i)ᵀ with hm
    have hm0 : m () () = quad c d := by
      rw [← hq]
      simp only [hm, mul_apply, transpose_apply, of_apply, Finset.sum_mul]
      exact Finset.sum_comm
    have hdet : m.det = quad c d := by rw [det_unique]; exact hm0
    have hinv : m⁻¹ () () = (quad c d)⁻¹ := by
      have := congrFun (congrFun (mul_nonsing_inv m (isUnit_iff_ne_zero.2 (hdet ▸ hpos.ne'))) ()) ()
      rw [mul_apply] at this
      simp only [Finset.univ_unique, Finset.sum_singleton, one_apply_eq] at this
      have h2 : quad c d * m⁻¹ () () = 1 := by rw [← hm0]; exact this
      field_simp
      linarith
    unfold kprojTerm loglik
    rw [if_neg (hdet ▸ hpos.ne' : m.det ≠ 0)]
    simp only [v]
    congr 2
    · rw [List.map_map]
      congr 1
      refine List.map_congr_left fun x _ => ?_
      have hx' : ((Matrix.of fun (_ : Unit) i => d i) *ᵥ x) () = ∑ i, x i * d i := by
        simp [mulVec, dotProduct, mul_comm]
      have hr : mahaRow m⁻¹ ((Matrix.of fun (_ : Unit) i => d i) *ᵥ x) = (∑ i, x i * d i) ^ 2 / quad c d := by
        rw [← hx']
        unfold mahaRow
        simp only [Finset.univ_unique, Finset.sum_singleton]
        show _ * m⁻¹ () () * _ = _
        rw [hinv]
        show ((Matrix.of fun (_ : Unit) i => d i) *ᵥ x) () * _ * ((Matrix.of fun (_ : Unit) i => d i) *ᵥ x) () = _
        ring
      show (1/2) * Real.log |(m⁻¹).det| - (1/2) * mahaRow m⁻¹ ((Matrix.of fun (_ : Unit) i => d i) *ᵥ x) =
        -(1/2) * Real.log (quad c d) - (1/2) * (∑ i, x i * d i) ^ 2 / quad c d
      rw [hr, det_nonsing_inv, Ring.inverse_eq_inv', hdet, abs_of_pos (inv_pos.2 hpos), Real.log_inv]
      ring
    · simp

/-- C80: on average the random-projection judge never ranks an estimate above the truth, and ties only with estimates that have the
right variance in every direction used. -/
theorem C80_projection_proper {Ω : Type} [MeasurableSpace Ω] {P : Measure Ω} [IsProbabilityMeasure P] {n : ℕ} {X : Fin n → Ω → ι → ℝ}
    {S : Matrix ι ι ℝ} (h : TestRows P X S) (hn : 1 ≤ n) {a : Matrix ι ι ℝ} (hS : PD S) (ha : PD a)
    (dirs : List (ι → ℝ)) (hs : dirs ≠ []) (hd : ∀ d ∈ dirs, normSq d = 1) :
    Integrable (fun ω => randomProjection a (rows X ω) dirs) P ∧ Integrable (fun ω => randomProjection S (rows X ω) dirs) P ∧
    ∫ ω, randomProjection a (rows X ω) dirs ∂P ≤ ∫ ω, randomProjection S (rows X ω) dirs ∂P ∧
    ((∫ ω, randomProjection a (rows X ω) dirs ∂P) = ∫ ω, randomProjection S (rows X ω) dirs ∂P ↔ ∀ d ∈ dirs, quad a d = quad S d) := by
  have hr : ∀ (c : Matrix ι ι ℝ) (d : ι → ℝ), ((Matrix.of fun (_ : Unit) i => d i) * c * (Matrix.of fun (_ : Unit) i => d i)ᵀ : Matrix Unit Unit ℝ)
      = Matrix.of fun _ _ => quad c d := fun c d => by
    ext i j
    simp only [mul_apply, transpose_apply, of_apply, Finset.sum_mul, quad, dotProduct, mulVec, Finset.mul_sum]
    rw [Finset.sum_comm]
    exact Finset.sum_congr rfl fun i _ => Finset.sum_congr rfl fun j _ => by ring
  obtain ⟨h1, h2, h3, h4⟩ := C80_kproj_proper h hn hS ha (dirs.map fun d => (Matrix.of fun (_ : Unit) i => d i)) (by simpa using hs)
    (fun W hW => by
      obtain ⟨d, hdm, rfl⟩ := List.mem_map.1 hW
      ext i j
      rw [mul_apply]
      simp only [of_apply, transpose_apply]
      rw [one_apply, if_pos (Subsingleton.elim i j)]
      exact hd d hdm)
    _ _ (fun ω => C80_projection_is_kproj ha _ (rows_ne hn ω) dirs hd) (fun ω => C80_projection_is_kproj hS _ (rows_ne hn ω) dirs hd)
  refine ⟨h1, h2, h3, h4.trans ?_⟩
  simp only [List.forall_mem_map, hr]
  refine forall₂_congr fun d _ => ⟨fun e => congrFun (congrFun e ()) (), fun e => by rw [e]⟩

theorem exists_minEig [Nonempty ι] {S : Matrix ι ι ℝ} (hS : PD S) : ∃ m, 0 < m ∧ MinEigGE S m := by
  obtain ⟨c, hc, x, hx, e⟩ := topEig_exists (-S)
  have h1 := hS.2 x hx
  have h2 := normSq_pos hx
  rw [quad_neg] at e
  refine ⟨-c, ?_, fun y => ?_⟩
  · by_contra h
    have : 0 ≤ c * normSq x := mul_nonneg (by linarith) h2.le
    linarith
  · have := hc y
    rw [quad_neg] at this
    linarith

/-- A symmetric matrix from its values on unordered pairs. -/
def symOf {p : ℕ} (g : Sym2 (Fin p) → ℝ) : Matrix (Fin p) (Fin p) ℝ := Matrix.of fun i j => g s(i, j)

/-- C80 (finding): with fewer directions than free entries (the default is 50 directions for 15 variables, which have 120) the
random-projection judge is blind: next to every positive definite truth there is another positive definite matrix it scores exactly
alike on every data set. -/
theorem C80_projection_blind {p : ℕ} (S : Matrix (Fin p) (Fin p) ℝ) (hS : PD S) (dirs : List (Fin p → ℝ))
    (h : dirs.length < p * (p + 1) / 2) :
    ∃ a, PD a ∧ a ≠ S ∧ ∀ xs, randomProjection a xs dirs = randomProjection S xs dirs := by
  have hlin : ∃ g : Sym2 (Fin p) → ℝ, g ≠ 0 ∧ ∀ d ∈ dirs, quad (symOf g) d = 0 := by
    let φ : (Sym2 (Fin p) → ℝ) →ₗ[ℝ] (Fin dirs.length → ℝ) :=
      { toFun := fun g k => quad (symOf g) (dirs.get k)
        map_add' := fun g1 g2 => by
          funext k
          have : symOf (g1 + g2) = symOf g1 + symOf g2 := rfl
          rw [this, quad_add]; rfl
        map_smul' := fun c g => by
          funext k
          have : symOf (c • g) = c • symOf g := rfl
          rw [this, quad_smul]; rfl }
    have hker : φ.ker ≠ ⊥ := by
      refine LinearMap.ker_ne_bot_of_finrank_lt ?_
      rw [Module.finrank_fintype_fun_eq_card, Module.finrank_fintype_fun_eq_card, Sym2.card, Fintype.card_fin, Fintype.card_fin,
        Nat.choose_two_right, Nat.add_sub_cancel, mul_comm]
      exact h
    obtain ⟨g, hg, hg0⟩ := Submodule.exists_mem_ne_zero_of_ne_bot hker
    refine ⟨g, hg0, fun d hd => ?_⟩
    obtain ⟨k, hk⟩ := List.mem_iff_get.1 hd
    have := congrFun (LinearMap.mem_ker.1 hg) k
    rw [← hk]
    exact this
  obtain ⟨g, hg0, hg⟩ := hlin
  have hsym : Symm (symOf g) := fun i j => by simp only [symOf, of_apply, Sym2.eq_swap]
  have hne : symOf g ≠ 0 := fun h0 => hg0 (funext fun z => by
    induction z using Sym2.ind with
    | _ i j => exact congrFun (congrFun h0 i) j)
  have hp : Nonempty (Fin p) := by
    rcases Nat.eq_zero_or_pos p with rfl | hp
    · simp at h
    · exact ⟨⟨0, hp⟩⟩
  obtain ⟨m, hm, hmin⟩ := exists_minEig hS
  obtain ⟨c, hc, -⟩ := topEig_exists (-symOf g)
  have hden : 0 < |c| + 1 := by positivity
  refine ⟨S + (m / (|c| + 1)) • symOf g, ⟨hS.1.add (hsym.smul _), fun x hx => ?_⟩, ?_, fun xs => ?_⟩
  · have hn := normSq_pos hx
    have h1 := hmin x
    have h2 := hc x
    rw [quad_neg] at h2
    rw [quad_add, quad_smul]
    have h3 : -((|c|) * normSq x) ≤ quad (symOf g) x := by nlinarith [le_abs_self c]
    have h4 : m / (|c| + 1) * -(|c| * normSq x) ≤ m / (|c| + 1) * quad (symOf g) x := mul_le_mul_of_nonneg_left h3 (by positivity)
    have h5 : m / (|c| + 1) * (|c| * normSq x) < m * normSq x := by
      rw [← mul_assoc, div_mul_eq_mul_div]
      refine mul_lt_mul_of_pos_right ?_ hn
      rw [div_lt_iff₀ hden]
      nlinarith
    nlinarith
  · intro h0
    have : (m / (|c| + 1)) • symOf g = 0 := by simpa using h0
    rcases smul_eq_zero.1 this with h1 | h1
    · exact (div_pos hm hden).ne' h1
    · exact hne h1
  · have hq : ∀ (c : Matrix (Fin p) (Fin p) ℝ) (d : Fin p → ℝ), (∑ i, ∑ j, d i * c i j * d j) = quad c d := fun c d => by
      simp only [quad, dotProduct, mulVec, Finset.mul_sum]
      exact Finset.sum_congr rfl fun i _ => Finset.sum_congr rfl fun j _ => by ring
    unfold randomProjection
    congr 2
    refine List.map_congr_left fun x _ => ?_
    congr 1
    refine List.map_congr_left fun d hd => ?_
    simp only [hq]
    rw [quad_add, quad_smul, hg d hd, mul_zero, add_zero]

end Precise.Power
