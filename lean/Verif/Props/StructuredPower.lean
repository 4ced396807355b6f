import Verif.Model.StructuredPower
import Verif.Props.PowerTables
import Verif.Props.TheoryOperator
import Verif.Props.Spiked
import Verif.Props.Translate

/-!
# C105: the structured experiment and the finite-sample pair of `research/schur_godambe.py`
-/

set_option linter.all false

open Matrix

namespace Precise.Spec
open Precise.Theory

/-- The log-density of `x` when every block is predicted from the earlier variables by `gamma` times its regression, with covariance
`dampedCov` (specification). -/
noncomputable def sequentialLogLik {p : ℕ} (M : Matrix (Fin p) (Fin p) ℝ) (g : ℝ) (sizes : List ℕ) (x : Fin p → ℝ) : ℝ :=
  ((blocksFrom 0 sizes).map fun b => Real.log (gaussDensity (fun k => g * (regression M b.1 b.2 *ᵥ fun j => x j.1) k)
    (dampedCov M g b.1 b.2) (fun k : Blk p b.1 b.2 => x k.1))).sum

/-- The within-group part of a matrix, with zeros between the groups of `gs` consecutive variables (specification). -/
def groupPart {p : ℕ} (gs : ℕ) (M : Matrix (Fin p) (Fin p) ℝ) : Matrix (Fin p) (Fin p) ℝ :=
  Matrix.of fun i j => if i.1 / gs = j.1 / gs then M i j else 0

end Precise.Spec

namespace Precise.Power
open Precise Spec Precise.Theory

variable {p : ℕ} (L : Lapack)

/-! ### The judge -/

theorem mean_add {α : Type} (f g : α → ℝ) (l : List α) : (l.map fun a => f a + g a).sum = (l.map f).sum + (l.map g).sum := by
  induction l with
  | nil => simp
  | cons a l ih => simp only [List.map_cons, List.sum_cons, ih]; ring

/-- C105: the score of a positive definite estimate for `gamma <= 1` is, up to a constant that no estimate changes, the mean over the test
rows of the log-density in which each block is predicted from the earlier ones by `gamma` times its regression. -/
theorem C105_score (sizes : List ℕ) (gamma : ℝ) (hg : gamma ≤ 1) (X : List (Fin p → ℝ)) (hX : X ≠ []) :
    ∃ c : ℝ, ∀ M : Matrix (Fin p) (Fin p) ℝ, PD M →
      schurScore M sizes gamma X = (X.map fun x => sequentialLogLik M gamma sizes x).sum / (X.length : ℝ) + c := by
  refine ⟨1 / 2 * ((blocksFrom 0 sizes).map fun b => (Fintype.card (Blk p b.1 b.2) : ℝ) * Real.log (2 * Real.pi)).sum, fun M hM => ?_⟩
  have hP := C72_proper sizes hM hg
  have hn : (X.length : ℝ) ≠ 0 := by simpa using hX
  have key : ∀ x : Fin p → ℝ, sequentialLogLik M gamma sizes x = -(1 / 2) * quad (schurOperator M sizes gamma).1 x
      + (-(1 / 2) * ((schurOperator M sizes gamma).2 +
        ((blocksFrom 0 sizes).map fun b => (Fintype.card (Blk p b.1 b.2) : ℝ) * Real.log (2 * Real.pi)).sum)) := fun x => by
    obtain ⟨e1, e2⟩ := C72_law sizes hP x
    rw [e1, e2]
    unfold sequentialLogLik
    have h : ∀ b ∈ blocksFrom 0 sizes, PD (dampedCov M gamma b.1 b.2) := hP
    revert h
    generalize blocksFrom 0 sizes = bs
    intro h
    induction bs with
    | nil => simp
    | cons b bs ih =>
      simp only [List.map_cons, List.sum_cons]
      rw [ih fun b' hb' => h b' (by simp [hb']), log_gaussDensity _ (h b (by simp))]
      have e : ((fun k : Blk p b.1 b.2 => x k.1) - fun k => gamma * (regression M b.1 b.2 *ᵥ fun j => x j.1) k) =
          fun k => x k.1 - gamma * (regression M b.1 b.2 *ᵥ fun j => x j.1) k := rfl
      rw [e]; ring
  unfold schurScore
  simp only [key]
  rw [mean_add, List.sum_map_mul_left, List.map_const', List.sum_replicate, nsmul_eq_mul]
  generalize ((blocksFrom 0 sizes).map fun b => (Fintype.card (Blk p b.1 b.2) : ℝ) * Real.log (2 * Real.pi)).sum = c
  field_simp
  ring

theorem quad_mean {c : Matrix (Fin p) (Fin p) ℝ} (h : PD c) (xs : List (Fin p → ℝ)) (hx : xs ≠ []) :
    (xs.map fun x => quad c⁻¹ x).sum / (xs.length : ℝ) = (c⁻¹ * secondMoment xs).trace := by
  have hn : (xs.length : ℝ) ≠ 0 := by simpa using hx
  have e1 := meanLogLik_zero_eq h xs hx
  unfold meanLogLik at e1
  simp only [log_gaussDensity 0 h, sub_zero] at e1
  have : (xs.map fun x => -(1/2) * quad c⁻¹ x - (1/2) * (Fintype.card (Fin p) * Real.log (2 * Real.pi) + Real.log c.det)).sum =
      -(1/2) * (xs.map fun x => quad c⁻¹ x).sum + xs.length * (- (1/2) * (Fintype.card (Fin p) * Real.log (2 * Real.pi) + Real.log c.det)) := by
    rw [← List.sum_map_mul_left]
    have := mean_add (fun x : Fin p → ℝ => -(1/2) * quad c⁻¹ x) (fun _ => - (1/2) * (Fintype.card (Fin p) * Real.log (2 * Real.pi) + Real.log c.det)) xs
    rw [List.map_const', List.sum_replicate, nsmul_eq_mul] at this
    rw [← this]
    congr 2
    funext x
    ring
  rw [this] at e1
  field_simp at e1 ⊢
  linarith

/-- The score is the Gaussian log-likelihood (without its constant) of the covariance `W⁻¹`. -/
theorem score_gauss {M : Matrix (Fin p) (Fin p) ℝ} (hM : PD M) (sizes : List ℕ) (hs : sizes.sum = p) {g : ℝ} (hg : g ≤ 1)
    (X : List (Fin p → ℝ)) (hX : X ≠ []) :
    PD (schurOperator M sizes g).1⁻¹ ∧ loglik (schurOperator M sizes g).1⁻¹ X = .ok (schurScore M sizes g X) := by
  obtain ⟨h1, h2⟩ := C72_gaussian sizes hs (C72_proper sizes hM hg)
  refine ⟨h1.inv, ?_⟩
  rw [loglik_pd h1.inv X hX, ← quad_mean h1.inv X hX]
  unfold schurScore
  simp only []
  rw [nonsing_inv_nonsing_inv _ (isUnit_iff_ne_zero.2 h1.det_pos.ne'), h2, det_nonsing_inv, Ring.inverse_eq_inv', Real.log_inv]
  congr 1
  ring

/-- C105: with `gamma = 1` the score is the full Gaussian log-likelihood, whatever the blocks. -/
theorem C105_score_one {M : Matrix (Fin p) (Fin p) ℝ} (hM : PD M) (sizes : List ℕ) (hs : sizes.sum = p) (X : List (Fin p → ℝ)) (hX : X ≠ []) :
    loglik M X = .ok (schurScore M sizes 1 X) := by
  have := (score_gauss hM sizes hs (le_refl 1) X hX).2
  rwa [(C72_gamma_one sizes hs hM).1, nonsing_inv_nonsing_inv _ (isUnit_iff_ne_zero.2 hM.det_pos.ne')] at this

theorem blocks_replicate (g gs a : ℕ) (b : ℕ × ℕ) (hb : b ∈ blocksFrom (a * gs) (List.replicate g gs)) : ∃ k, b = (k * gs, gs) := by
  induction g generalizing a with
  | zero => simp [blocksFrom] at hb
  | succ g ih =>
    simp only [List.replicate_succ, blocksFrom, List.mem_cons] at hb
    rcases hb with rfl | hb
    · exact ⟨a, rfl⟩
    · exact ih (a + 1) (by rwa [add_mul, one_mul])

theorem same_group {gs k i j : ℕ} (h1 : k * gs ≤ i) (h2 : i < k * gs + gs) (h3 : k * gs ≤ j) (h4 : j < k * gs + gs) : i / gs = j / gs := by
  have hg : 0 < gs := by omega
  have : ∀ i, k * gs ≤ i → i < k * gs + gs → i / gs = k := fun i h1 h2 => by
    rw [Nat.div_eq_iff hg]
    constructor
    · omega
    · omega
  rw [this i h1 h2, this j h3 h4]

theorem diff_group {gs k i j : ℕ} (h1 : k * gs ≤ i) (h2 : i < k * gs + gs) (h3 : j < k * gs) : i / gs ≠ j / gs := by
  have hg : 0 < gs := by
    rcases Nat.eq_zero_or_pos gs with h | h
    · subst h; omega
    · exact h
  have e1 : i / gs = k := by
    rw [Nat.div_eq_iff hg]; omega
  have e2 : j / gs < k := by rw [Nat.div_lt_iff_lt_mul hg]; exact h3
  omega

/-- For a matrix without between-group entries `gamma` does not matter. -/
theorem operator_groups {N : Matrix (Fin p) (Fin p) ℝ} (gs : ℕ) (h0 : ∀ i j : Fin p, i.1 / gs ≠ j.1 / gs → N i j = 0) (g : ℕ) (x y : ℝ) :
    schurOperator N (List.replicate g gs) x = schurOperator N (List.replicate g gs) y := by
  have key : ∀ (sizes : List ℕ) a, (∀ b ∈ blocksFrom a sizes, ∃ k, b = (k * gs, gs)) → operatorFrom N x a sizes = operatorFrom N y a sizes := by
    intro sizes
    induction sizes with
    | nil => intro a _; rfl
    | cons s rest ih =>
      intro a h
      obtain ⟨k, hk⟩ := h (a, s) (by simp [blocksFrom])
      have hz : subKW N a s = 0 := by
        obtain ⟨rfl, rfl⟩ := Prod.mk.inj hk
        ext i j
        exact h0 _ _ (diff_group i.2.1 i.2.2 j.2)
      simp only [operatorFrom]
      rw [ih (a + s) fun b hb => h b (by simp [blocksFrom, hb])]
      have e1 : ∀ z, blockT N z a s = blockT N 0 a s := fun z => by
        unfold blockT; rw [hz]; ext i j; simp
      have e2 : ∀ z, dampS N z a s = subKK N a s := fun z => by
        unfold dampS; rw [hz]; simp
      rw [e1 x, e1 y, e2 x, e2 y]
  unfold schurOperator
  rw [key _ 0 fun b hb => blocks_replicate g gs 0 b (by simpa using hb)]

theorem pd_groupPart {M : Matrix (Fin p) (Fin p) ℝ} (gs : ℕ) (h : Conditioned M) : PD (groupPart gs M) := by
  obtain ⟨h1, m, h2, h3, h4⟩ := h
  have e : groupPart gs M = (Matrix.of fun i j => if (fun i : Fin p => i.1 / gs) i ≠ (fun i : Fin p => i.1 / gs) j then M i j * 0 else M i j) := by
    ext i j; simp only [groupPart, of_apply]; by_cases h : i.1 / gs = j.1 / gs <;> simp [h]
  rw [e]
  refine MinEigGE.pd (c := m / 1000) (fun i j => by simp only [of_apply, h1.1 i j, ne_comm (a := i.1 / gs)]) (by positivity) fun y => ?_
  rw [quad_damped, ← normSq_parts (fun i : Fin p => i.1 / gs) y]
  have hb : m / 1000 * ∑ k ∈ Finset.univ.image (fun i : Fin p => i.1 / gs), normSq (fun i => if i.1 / gs = k then y i else 0) ≤
      ∑ k ∈ Finset.univ.image (fun i : Fin p => i.1 / gs), quad M (fun i => if i.1 / gs = k then y i else 0) := by
    rw [Finset.mul_sum]; exact Finset.sum_le_sum fun k _ => h3 _
  simpa using hb

/-- C105: with `gamma = 0` the score is the Gaussian log-likelihood of the estimate with its between-group entries removed. -/
theorem C105_score_zero {M : Matrix (Fin p) (Fin p) ℝ} (hM : Conditioned M) (g gs : ℕ) (hs : g * gs = p) (X : List (Fin p → ℝ)) (hX : X ≠ []) :
    loglik (groupPart gs M) X = .ok (schurScore M (List.replicate g gs) 0 X) := by
  have e : schurOperator M (List.replicate g gs) 0 = schurOperator (groupPart gs M) (List.replicate g gs) 1 := by
    rw [C72_gamma_zero (groupPart gs M) (List.replicate g gs), operator_groups gs (fun i j h => by simp [groupPart, h]) g 0 1]
    intro b hb i j h1 h2 h3 h4
    obtain ⟨k, rfl⟩ := blocks_replicate g gs 0 b (by simpa using hb)
    simp [groupPart, same_group h1 h2 h3 h4]
  have := C105_score_one (pd_groupPart gs hM) (List.replicate g gs) (by simpa using hs) X hX
  rw [this]
  unfold schurScore
  rw [e]

/-- C105: at both ends the judge of this script and the judge `_schur_loglik` of `metric_power.py` (which multiplies the between-group
entries by `gamma` and projects) give the same score to every estimate of condition number at most 1000. -/
theorem C105_endpoints (hp : 1 ≤ p) {M : Matrix (Fin p) (Fin p) ℝ} (hM : Conditioned M) (g gs : ℕ) (hs : g * gs = p) (X : List (Fin p → ℝ))
    (hX : X ≠ []) (x : ℝ) (hx : x = 0 ∨ x = 1) :
    schurLoglik L M X (fun i => i.1 / gs) x = .ok (schurScore M (List.replicate g gs) x X) := by
  haveI : Nonempty (Fin p) := ⟨⟨0, hp⟩⟩
  obtain ⟨h1, m, h2, h3, h4⟩ := hM
  obtain ⟨k1, k2⟩ := (C80_schur L M h1.1 X (fun i => i.1 / gs)).2 m h3 h4
  rcases hx with rfl | rfl
  · rw [k1 0 (le_refl _) zero_le_one, ← C105_score_zero ⟨h1, m, h2, h3, h4⟩ g gs hs X hX]
    congr 1
    ext i j; simp [groupPart]
  · rw [k2, C105_score_one h1 (List.replicate g gs) (by simpa using hs) X hX]

/-! ### The table -/

/-- C105: both estimates are of condition number at most 1000, whatever the noise and the errors. -/
theorem C105_estimates (hp : 1 ≤ p) (gs : ℕ) (rho sigCross err sign : ℝ) (n : Matrix (Fin p) (Fin p) ℝ) :
    Conditioned (structMake L gs rho sigCross err sign n) := by
  haveI : Nonempty (Fin p) := ⟨⟨0, hp⟩⟩
  unfold structMake
  simp only []
  refine projectPd_conditioned L ?_
  have : (Matrix.of fun i j : Fin p => if i.1 / gs ≠ j.1 / gs then within p gs (rho + sign * err) i j + sigCross * toSymmetric n i j
      else within p gs (rho + sign * err) i j).trace = p := by
    simp [trace, within]
  rw [this]
  exact_mod_cast hp

/-- C105: an estimate is the matrix with ones on the diagonal, `rho ± err` inside the groups and `sig_cross` times symmetric noise between
them, whenever that matrix has condition number at most 1000; otherwise its projection to one. -/
theorem C105_estimate (gs : ℕ) (rho sigCross err sign : ℝ) (n : Matrix (Fin p) (Fin p) ℝ) :
    structMake L gs rho sigCross err sign n = projectPd L (groupedCorr p gs (rho + sign * err) sigCross n) ∧
    (1 ≤ p → Conditioned (groupedCorr p gs (rho + sign * err) sigCross n) →
      structMake L gs rho sigCross err sign n = groupedCorr p gs (rho + sign * err) sigCross n) := by
  have e : structMake L gs rho sigCross err sign n = projectPd L (groupedCorr p gs (rho + sign * err) sigCross n) := by
    unfold structMake
    simp only []
    rw [grouped_eq]
  refine ⟨e, fun hp hc => ?_⟩
  haveI : Nonempty (Fin p) := ⟨⟨0, hp⟩⟩
  obtain ⟨h1, m, hm, lo, hi⟩ := hc
  rw [e, C79_id L (1 / 1000) m (by norm_num) (by rw [one_div_mul_eq_div]; exact lo) hi, toSymmetric_of_symm h1.1]

open Classical in
/-- C105: `structured_power_over_draws` on any positive number of trials completes for every list of `gamma <= 1`; the entry of a `gamma` is
the fraction of trials in which the first estimate has the higher mean sequential log-density on the test rows, times the number of
occurrences of `gamma` in the list; for `gamma = 1` this is the comparison of the full Gaussian log-likelihoods, for `gamma = 0` that of
the estimates without their between-group entries. -/
theorem C105_structured (hp : 1 ≤ p) (g gs : ℕ) (hs : g * gs = p) (rho sigCross eg eb : ℝ) (gammas : List ℝ) (hgam : ∀ x ∈ gammas, x ≤ 1)
    (trials : List (StructTrial p)) (hne : trials ≠ []) (hX : ∀ t ∈ trials, t.X ≠ []) :
    ∃ a : ℝ → ℝ, structuredPower L g gs rho sigCross eg eb gammas trials = .ok (gammas.map fun x => (x, a x)) ∧
      (∀ x ∈ gammas, a x = (gammas.count x : ℝ) * fraction (fun t =>
        (t.X.map fun y => sequentialLogLik (t.bad L gs rho sigCross eb) x (List.replicate g gs) y).sum / (t.X.length : ℝ) <
        (t.X.map fun y => sequentialLogLik (t.good L gs rho sigCross eg) x (List.replicate g gs) y).sum / (t.X.length : ℝ)) trials) ∧
      (1 ∈ gammas → a 1 = (gammas.count 1 : ℝ) * fraction (fun t =>
        meanLogLik 0 (t.bad L gs rho sigCross eb) t.X < meanLogLik 0 (t.good L gs rho sigCross eg) t.X) trials) ∧
      (0 ∈ gammas → a 0 = (gammas.count 0 : ℝ) * fraction (fun t =>
        meanLogLik 0 (groupPart gs (t.bad L gs rho sigCross eb)) t.X < meanLogLik 0 (groupPart gs (t.good L gs rho sigCross eg)) t.X) trials) := by
  have cg : ∀ t : StructTrial p, Conditioned (t.good L gs rho sigCross eg) := fun t => C105_estimates L hp gs rho sigCross eg _ _
  have cb : ∀ t : StructTrial p, Conditioned (t.bad L gs rho sigCross eb) := fun t => C105_estimates L hp gs rho sigCross eb _ _
  let win : ℝ → StructTrial p → Prop := fun x t =>
    schurScore (t.bad L gs rho sigCross eb) (List.replicate g gs) x t.X < schurScore (t.good L gs rho sigCross eg) (List.replicate g gs) x t.X
  let vs : StructTrial p → List (ℝ × Bool) := fun t => gammas.map fun x => (x, decide (win x t))
  have htab := (C101_table gammas (fun t : StructTrial p => gammas.mapM fun x =>
    verdict x (.ok (schurScore (t.good L gs rho sigCross eg) (List.replicate g gs) x t.X))
      (.ok (schurScore (t.bad L gs rho sigCross eb) (List.replicate g gs) x t.X)))).1 vs trials hne
    (fun t _ => mapM_ok' _ _ gammas fun x _ => rfl)
  have cga : ∀ x t, (vs t).count (x, true) = gammas.count x * (decide (win x t)).toNat := fun x t =>
    count_map_inj (fun x : ℝ => x) Function.injective_id (fun x => decide (win x t)) gammas x
  have ha : ∀ x, (((trials.map fun t => (vs t).count (x, true)).sum : ℕ) : ℝ) / (trials.length : ℝ) =
      (gammas.count x : ℝ) * fraction (win x) trials := fun x => by
    simp only [cga]
    rw [sum_toNat]
  refine ⟨fun x => (((trials.map fun t => (vs t).count (x, true)).sum : ℕ) : ℝ) / (trials.length : ℝ), htab, fun x hx => ?_, fun _ => ?_, fun _ => ?_⟩
  · simp only []
    rw [ha]
    congr 1
    refine fraction_congr fun t ht => ?_
    obtain ⟨c, hc⟩ := C105_score (List.replicate g gs) x (hgam x hx) t.X (hX t ht)
    simp only [win]
    rw [hc _ (cg t).1, hc _ (cb t).1]
    constructor <;> intro h <;> linarith
  · simp only []
    rw [ha]
    congr 1
    refine fraction_congr fun t ht => ?_
    have h := (loglik_lt (cg t).1 (cb t).1 t.X (hX t ht)).2.2
    rw [C105_score_one (cg t).1 (List.replicate g gs) (by simpa using hs) t.X (hX t ht),
      C105_score_one (cb t).1 (List.replicate g gs) (by simpa using hs) t.X (hX t ht)] at h
    exact h
  · simp only []
    rw [ha]
    congr 1
    refine fraction_congr fun t ht => ?_
    have h := (loglik_lt (pd_groupPart gs (cg t)) (pd_groupPart gs (cb t)) t.X (hX t ht)).2.2
    rw [C105_score_zero (cg t) g gs hs t.X (hX t ht), C105_score_zero (cb t) g gs hs t.X (hX t ht)] at h
    exact h

/-- C105: no trials is a `ZeroDivisionError` (unless the list of gammas is empty). -/
theorem C105_no_trials (g gs : ℕ) (rho sigCross eg eb : ℝ) (gammas : List ℝ) (h : gammas ≠ []) :
    structuredPower (p := p) L g gs rho sigCross eg eb gammas [] = .error .zeroDivision := by
  unfold structuredPower table
  simp [h]

/-! ### Findings -/

/-- A 2 x 2 correlation matrix. -/
def corr2 (r : ℝ) : Matrix (Fin 2) (Fin 2) ℝ := !![1, r; r, 1]

theorem corr2_quad (r : ℝ) (x : Fin 2 → ℝ) : quad (corr2 r) x = (1 + r) / 2 * (x 0 + x 1) ^ 2 + (1 - r) / 2 * (x 0 - x 1) ^ 2 := by
  simp [quad, corr2, mulVec, dotProduct, Fin.sum_univ_two]; ring

theorem corr2_conditioned {r : ℝ} (h0 : 0 ≤ r) (h1 : r ≤ 3 / 4) : Conditioned (corr2 r) ∧ MinEigGE (corr2 r) (2 / 1000) ∧ MaxEigLE (corr2 r) 2 := by
  have lo : MinEigGE (corr2 r) (2 / 1000) := fun x => by
    rw [corr2_quad]
    simp only [normSq, Fin.sum_univ_two]
    nlinarith [sq_nonneg (x 0 + x 1), sq_nonneg (x 0 - x 1)]
  have hi : MaxEigLE (corr2 r) 2 := fun x => by
    rw [corr2_quad]
    simp only [normSq, Fin.sum_univ_two]
    nlinarith [sq_nonneg (x 0 + x 1), sq_nonneg (x 0 - x 1)]
  exact ⟨⟨lo.pd (fun i j => by fin_cases i <;> fin_cases j <;> rfl) (by norm_num), 2, by norm_num, lo, hi⟩, lo, hi⟩

theorem structMake_two (rho err : ℝ) (h0 : 0 ≤ rho + err) (h1 : rho + err ≤ 3 / 4) :
    structMake L 2 rho 0 err 1 (0 : Matrix (Fin 2) (Fin 2) ℝ) = corr2 (rho + err) := by
  unfold structMake
  simp only [one_mul]
  have e : (Matrix.of fun i j : Fin 2 => if i.1 / 2 ≠ j.1 / 2 then within 2 2 (rho + err) i j + 0 * toSymmetric 0 i j else within 2 2 (rho + err) i j) =
      corr2 (rho + err) := by
    ext i j; fin_cases i <;> fin_cases j <;> simp [within, corr2]
  rw [e]
  obtain ⟨-, lo, hi⟩ := corr2_conditioned h0 h1
  rw [C79_id L (1 / 1000) 2 (by norm_num) (by rw [show (1:ℝ) / 1000 * 2 = 2 / 1000 by norm_num]; exact lo) hi, toSymmetric_of_symm]
  intro i j; fin_cases i <;> fin_cases j <;> rfl

/-- The trial of the witness: no noise, both signs `+1`, one test row `(1, -1)`. -/
def orderTrial : StructTrial 2 := { signGood := 1, nGood := 0, signBad := 1, nBad := 0, X := [![1, -1]] }

/-- C105 (finding): the script says the power is the fraction of trials in which the lower-within-error estimate is ranked first, but the
two errors are never compared: with `err_good = 0.2 > err_bad = 0` the judge ranks the lower-error estimate first in the only
trial, and the reported power is 0 for every `gamma`. -/
theorem C105_order_not_checked (gamma : ℝ) (hg : gamma ≤ 1) :
    structuredPower L 1 2 (1 / 2) 0 (1 / 5) 0 [gamma] [orderTrial] = .ok [(gamma, 0)] ∧
    |(1 / 2 + 1 * 0) - (1 / 2 : ℝ)| < |(1 / 2 + 1 * (1 / 5)) - (1 / 2 : ℝ)| := by
  refine ⟨?_, by norm_num⟩
  have good : orderTrial.good L 2 (1 / 2) 0 (1 / 5) = corr2 (7 / 10) := by
    have := structMake_two L (1 / 2) (1 / 5) (by norm_num) (by norm_num)
    rw [show (1:ℝ) / 2 + 1 / 5 = 7 / 10 by norm_num] at this
    exact this
  have bad : orderTrial.bad L 2 (1 / 2) 0 0 = corr2 (1 / 2) := by
    have := structMake_two L (1 / 2) 0 (by norm_num) (by norm_num)
    rw [show (1:ℝ) / 2 + 0 = 1 / 2 by norm_num] at this
    exact this
  have hX : orderTrial.X ≠ [] := by simp [orderTrial]
  have sc : ∀ r : ℝ, 0 ≤ r → r ≤ 3 / 4 → schurScore (corr2 r) (List.replicate 1 2) gamma orderTrial.X = -(1 / 2) * (Real.log (1 - r ^ 2) + 2 / (1 - r)) := by
    intro r h0 h1
    have e1 : schurScore (corr2 r) (List.replicate 1 2) gamma orderTrial.X = schurScore (corr2 r) (List.replicate 1 2) 1 orderTrial.X := by
      unfold schurScore
      rw [operator_groups (N := corr2 r) 2 (fun i j h => by exfalso; apply h; have := i.2; have := j.2; omega) 1 gamma 1]
    rw [e1]
    unfold schurScore
    simp only []
    obtain ⟨w1, w2⟩ := C72_gamma_one (List.replicate 1 2) (by simp) (corr2_conditioned h0 h1).1.1
    rw [w1, w2]
    have hd : (corr2 r).det = 1 - r ^ 2 := by simp [corr2, det_fin_two]; ring
    rw [hd]
    have hr : (1 - r) ≠ 0 := by linarith
    have hr2 : (1 + r) ≠ 0 := by linarith
    have hinv : (corr2 r)⁻¹ = (1 - r ^ 2)⁻¹ • !![1, -r; -r, 1] := by
      rw [inv_def, hd, Ring.inverse_eq_inv', adjugate_fin_two]; simp [corr2]
    rw [hinv]
    have : quad ((1 - r ^ 2)⁻¹ • !![1, -r; -r, 1]) ![1, -1] = 2 / (1 - r) := by
      rw [quad_smul, show (1 - r ^ 2) = (1 - r) * (1 + r) by ring]
      simp [quad, mulVec, dotProduct, Fin.sum_univ_two]
      field_simp
      ring
    simp only [orderTrial, List.map_cons, List.map_nil, List.sum_cons, List.sum_nil, List.length_cons, List.length_nil]
    rw [this]
    norm_num
  have hwin : schurScore (corr2 (7 / 10)) (List.replicate 1 2) gamma orderTrial.X < schurScore (corr2 (1 / 2)) (List.replicate 1 2) gamma orderTrial.X := by
    rw [sc _ (by norm_num) (by norm_num), sc _ (by norm_num) (by norm_num)]
    have h1 : Real.log ((1 - (1 / 2 : ℝ) ^ 2) / (1 - (7 / 10 : ℝ) ^ 2)) ≤ (1 - (1 / 2 : ℝ) ^ 2) / (1 - (7 / 10 : ℝ) ^ 2) - 1 :=
      Real.log_le_sub_one_of_pos (by norm_num)
    rw [Real.log_div (by norm_num) (by norm_num)] at h1
    norm_num at h1 ⊢
    linarith
  unfold structuredPower
  simp only []
  have htab := (C101_table [gamma] (fun t : StructTrial 2 => [gamma].mapM fun x =>
    verdict x (.ok (schurScore (t.good L 2 (1 / 2) 0 (1 / 5)) (List.replicate 1 2) x t.X))
      (.ok (schurScore (t.bad L 2 (1 / 2) 0 0) (List.replicate 1 2) x t.X)))).1 (fun _ => [(gamma, false)]) [orderTrial] (by simp)
    (fun t ht => by
      obtain rfl : t = orderTrial := by simpa using ht
      rw [good, bad]
      simp only [List.mapM_cons, List.mapM_nil]
      rw [verdict_ok, decide_eq_false (not_lt.2 hwin.le)]
      rfl)
  exact htab.trans (by simp)

/-- C105 (finding): strictly between the ends the judge of this script and that of `metric_power.schur_power`, which the script says it
mirrors, are different judges: with `gamma = 1/2` and the same test row they rank the same two estimates in opposite order. -/
theorem C105_interior_differs :
    ∃ (A B : Matrix (Fin 2) (Fin 2) ℝ) (X : List (Fin 2 → ℝ)) (a b : ℝ), Conditioned A ∧ Conditioned B ∧ X ≠ [] ∧
      schurScore B [1, 1] (1 / 2) X < schurScore A [1, 1] (1 / 2) X ∧
      schurLoglik L A X (fun i => i.1 / 1) (1 / 2) = .ok a ∧ schurLoglik L B X (fun i => i.1 / 1) (1 / 2) = .ok b ∧ a < b := by
  have hA := corr2_conditioned (r := 1 / 2) (by norm_num) (by norm_num)
  let B : Matrix (Fin 2) (Fin 2) ℝ := diagonal ![1, 29 / 32]
  have qB : ∀ x, quad B x = x 0 ^ 2 + 29 / 32 * x 1 ^ 2 := fun x => by
    simp [B, quad, mulVec, dotProduct, Fin.sum_univ_two, diagonal]; ring
  have lo : MinEigGE B (1 / 1000) := fun x => by
    rw [qB]; simp only [normSq, Fin.sum_univ_two]; nlinarith [sq_nonneg (x 0), sq_nonneg (x 1)]
  have hi : MaxEigLE B 1 := fun x => by
    rw [qB]; simp only [normSq, Fin.sum_univ_two]; nlinarith [sq_nonneg (x 0), sq_nonneg (x 1)]
  have sB : Symm B := fun i j => by fin_cases i <;> fin_cases j <;> simp [B]
  have hB : PD B := lo.pd sB (by norm_num)
  have hl : ∀ C : Matrix (Fin 2) (Fin 2) ℝ, PD C → loglik C [0] = .ok (-(1 / 2) * Real.log C.det) := fun C hC => by
    rw [loglik_pd hC [0] (by simp), ← quad_mean hC [0] (by simp)]
    simp [quad]
  refine ⟨corr2 (1 / 2), B, [0], -(1 / 2) * Real.log (15 / 16), -(1 / 2) * Real.log (29 / 32), hA.1,
    ⟨hB, 1, by norm_num, lo, hi⟩, by simp, ?_, ?_, ?_, ?_⟩
  · have sc : ∀ M : Matrix (Fin 2) (Fin 2) ℝ, PD M → schurScore M [1, 1] (1 / 2) [0] =
        -(1 / 2) * (Real.log (M 0 0) + Real.log (M 1 1 - 1 / 2 * (M 1 0 * (M 0 0)⁻¹ * M 1 0))) := fun M hM => by
      unfold schurScore
      simp only []
      rw [(C72_law [1, 1] (C72_proper [1, 1] hM (by norm_num)) 0).1]
      letI u0 : Unique (Blk 2 0 1) := ⟨⟨⟨0, by norm_num, by norm_num⟩⟩, fun i => by
        apply Subtype.ext; apply Fin.ext; have := i.2; simp; omega⟩
      letI u1 : Unique (Blk 2 1 1) := ⟨⟨⟨1, by norm_num, by norm_num⟩⟩, fun i => by
        apply Subtype.ext; apply Fin.ext; have := i.2; simp; omega⟩
      letI u2 : Unique (Pre 2 1) := ⟨⟨⟨0, by norm_num⟩⟩, fun i => by
        apply Subtype.ext; apply Fin.ext; have := i.2; simp; omega⟩
      have d0 : (dampedCov M (1 / 2) 0 1).det = M 0 0 := by
        rw [det_unique]
        have : IsEmpty (Pre 2 0) := ⟨fun i => absurd i.2 (by omega)⟩
        simp [dampedCov, mul_apply]; rfl
      have d1 : (dampedCov M (1 / 2) 1 1).det = M 1 1 - 1 / 2 * (M 1 0 * (M 0 0)⁻¹ * M 1 0) := by
        rw [det_unique]
        simp only [dampedCov, regression, Matrix.sub_apply, of_apply, Matrix.smul_apply, mul_apply, smul_eq_mul, transpose_apply, Fintype.sum_unique]
        rw [inv_subsingleton]
        simp [Ring.inverse_eq_inv']; rfl
      simp only [blocksFrom, List.map_cons, List.map_nil, List.sum_cons, List.sum_nil, zero_add]
      rw [d0, d1]
      simp [quad]
    rw [sc _ hA.1.1, sc _ hB]
    have : Real.log (7 / 8) < Real.log (29 / 32) := Real.log_lt_log (by norm_num) (by norm_num)
    simp [corr2, B]
    norm_num at this ⊢
    linarith
  · obtain ⟨k1, -⟩ := (C80_schur L (corr2 (1 / 2)) hA.1.1.1 [0] (fun i : Fin 2 => i.1 / 1)).2 2 hA.2.1 hA.2.2
    rw [k1 (1 / 2) (by norm_num) (by norm_num)]
    have e : (Matrix.of fun i j : Fin 2 => if i.1 / 1 = j.1 / 1 then corr2 (1 / 2) i j else 1 / 2 * corr2 (1 / 2) i j) = corr2 (1 / 4) := by
      ext i j; fin_cases i <;> fin_cases j <;> simp [corr2] <;> norm_num
    rw [e, hl _ (corr2_conditioned (by norm_num) (by norm_num)).1.1]
    simp [corr2, det_fin_two]; norm_num
  · obtain ⟨k1, -⟩ := (C80_schur L B sB [0] (fun i : Fin 2 => i.1 / 1)).2 1 lo hi
    rw [k1 (1 / 2) (by norm_num) (by norm_num)]
    have e : (Matrix.of fun i j : Fin 2 => if i.1 / 1 = j.1 / 1 then B i j else 1 / 2 * B i j) = B := by
      ext i j; fin_cases i <;> fin_cases j <;> simp [B]
    rw [e, hl _ hB]
    simp [B, det_diagonal]
  · have : Real.log (29 / 32) < Real.log (15 / 16) := Real.log_lt_log (by norm_num) (by norm_num)
    linarith

end Precise.Power

namespace Precise.Theory
open Precise.Spec

variable {p : ℕ}

/-! ### The finite-sample pair -/

theorem finiteSamplePair_eq (T : Matrix (Fin p) (Fin p) ℝ) (X : List (Fin p → ℝ)) :
    finiteSamplePair T X = open Classical in if (shrinkIso (npCov X) (1 / 2)).det = 0 ∨ (shrinkIso (npCov X) (7 / 100)).det = 0 then .error .linAlgError
      else .ok ((shrinkIso (npCov X) (1 / 2), shrinkIso (npCov X) (7 / 100)),
        (kl (shrinkIso (npCov X) (1 / 2)) T, kl (shrinkIso (npCov X) (7 / 100)) T)) := by
  unfold finiteSamplePair shrinkIso
  simp only []
  rw [show (1 - 1 / 2 : ℝ) = 1 / 2 by norm_num, show (1 - 7 / 100 : ℝ) = 93 / 100 by norm_num]

theorem psd_zero_of_trace {S : Matrix (Fin p) (Fin p) ℝ} (h : PSD S) (h0 : S.trace = 0) : S = 0 := by
  have hd : ∀ i, S i i = 0 := fun i =>
    (Finset.sum_eq_zero_iff_of_nonneg (s := Finset.univ) (f := fun i => S i i) fun i _ => by
      have := h.2 (Pi.single i 1); rwa [quad_single] at this).1 h0 i (Finset.mem_univ i)
  ext i j
  have := h.entry_sq_le i j
  rw [hd, zero_mul] at this
  exact mul_self_eq_zero.1 (le_antisymm this (mul_self_nonneg _))

theorem trace_npCov_zero (X : List (Fin p → ℝ)) : (npCov X).trace = 0 ↔ ∀ x ∈ X, ∀ y ∈ X, x = y := by
  rcases eq_or_ne X [] with rfl | hX
  · simp [npCov, trace]
  have hn : (X.length : ℝ) ≠ 0 := by simpa using hX
  have hpos : (0:ℝ) < X.length := by positivity
  have hd : ∀ i, npCov X i i = ((X.map fun x => x i).map fun v => (v - npMean X i) ^ 2).sum / X.length := fun i => by
    simp only [npCov, of_apply, List.map_map, Function.comp_def, sq]
  constructor
  · intro h x hx y hy
    funext i
    have h0 : npCov X i i = 0 := by
      have := (Finset.sum_eq_zero_iff_of_nonneg (s := Finset.univ) (f := fun i => npCov X i i) fun i _ => by
        rw [hd]; exact div_nonneg (sumsq_nonneg _ _) hpos.le).1 h
      exact this i (Finset.mem_univ i)
    rw [hd, div_eq_zero_iff, or_iff_left hn, sumsq_eq_zero] at h0
    rw [h0 (x i) (List.mem_map.2 ⟨x, hx, rfl⟩), h0 (y i) (List.mem_map.2 ⟨y, hy, rfl⟩)]
  · intro h
    obtain ⟨x0, hx0⟩ := List.exists_mem_of_ne_nil X hX
    refine Finset.sum_eq_zero fun i _ => ?_
    rw [diag_apply, hd, div_eq_zero_iff]
    left
    rw [sumsq_eq_zero]
    intro v hv
    obtain ⟨x, hx, rfl⟩ := List.mem_map.1 hv
    have e : X = List.replicate X.length x0 := List.eq_replicate_iff.2 ⟨rfl, fun y hy => h y hy x0 hx0⟩
    have : npMean X i = x0 i := by
      unfold npMean
      rw [e]
      simp
      field_simp
    rw [this, h x hx x0 hx0]

/-- C105: `_finite_sample_pair` raises exactly when all training rows are equal (or there is none); otherwise, even with fewer rows than
variables, both estimates are positive definite with the total variance of the sample, their condition numbers are at most `1 + p`
and `1 + 93/7 p`, and the two reported numbers are Gaussian divergences from the truth: non-negative, and zero only for the truth. -/
theorem C105_pair (hp : 1 ≤ p) (T : Matrix (Fin p) (Fin p) ℝ) (hT : PD T) (X : List (Fin p → ℝ)) :
    (finiteSamplePair T X = .error .linAlgError ↔ ∀ x ∈ X, ∀ y ∈ X, x = y) ∧
    ((∃ x ∈ X, ∃ y ∈ X, x ≠ y) → ∃ (A B : Matrix (Fin p) (Fin p) ℝ) (kA kB lA lB : ℝ), finiteSamplePair T X = .ok ((A, B), (kA, kB)) ∧
      PD A ∧ PD B ∧ A.trace = (npCov X).trace ∧ B.trace = (npCov X).trace ∧
      0 < lA ∧ MinEigGE A lA ∧ MaxEigLE A ((1 + p) * lA) ∧ 0 < lB ∧ MinEigGE B lB ∧ MaxEigLE B ((1 + 93 / 7 * p) * lB) ∧
      0 ≤ kA ∧ (kA = 0 ↔ A = T) ∧ 0 ≤ kB ∧ (kB = 0 ↔ B = T)) := by
  have hpsd : PSD (npCov X) := psd_covOf X
  have hp0 : (0:ℝ) < p := by exact_mod_cast hp
  have main : (∃ x ∈ X, ∃ y ∈ X, x ≠ y) → ∃ (A B : Matrix (Fin p) (Fin p) ℝ) (kA kB lA lB : ℝ), finiteSamplePair T X = .ok ((A, B), (kA, kB)) ∧
      PD A ∧ PD B ∧ A.trace = (npCov X).trace ∧ B.trace = (npCov X).trace ∧
      0 < lA ∧ MinEigGE A lA ∧ MaxEigLE A ((1 + p) * lA) ∧ 0 < lB ∧ MinEigGE B lB ∧ MaxEigLE B ((1 + 93 / 7 * p) * lB) ∧
      0 ≤ kA ∧ (kA = 0 ↔ A = T) ∧ 0 ≤ kB ∧ (kB = 0 ↔ B = T) := by
    rintro ⟨x, hx, y, hy, hxy⟩
    have htr : 0 < (npCov X).trace := lt_of_le_of_ne hpsd.trace_nonneg fun h => hxy ((trace_npCov_zero X).1 h.symm x hx y hy)
    have hmax : MaxEigLE (npCov X) (npCov X).trace := maxEig_of_trace hpsd (le_refl _)
    have key : ∀ a : ℝ, 0 < a → a ≤ 1 → PD (shrinkIso (npCov X) a) ∧ (shrinkIso (npCov X) a).trace = (npCov X).trace ∧
        0 < a * ((npCov X).trace / p) ∧ MinEigGE (shrinkIso (npCov X) a) (a * ((npCov X).trace / p)) ∧
        MaxEigLE (shrinkIso (npCov X) a) ((1 + (1 - a) / a * p) * (a * ((npCov X).trace / p))) := fun a h0 h1 => by
      obtain ⟨e1, e2, e3⟩ := C90_estimates hp X a h0.le h1
      have hl : 0 < a * ((npCov X).trace / p) := by positivity
      refine ⟨e3.pd e1 hl, e2, hl, e3, fun z => ?_⟩
      rw [shrinkIso_symm hpsd.1, quad_add, quad_smul, quad_smul, quad_one]
      have h := mul_le_mul_of_nonneg_left (hmax z) (sub_nonneg.2 h1)
      have : (1 + (1 - a) / a * p) * (a * ((npCov X).trace / p)) = a * ((npCov X).trace / p) + (1 - a) * (npCov X).trace := by
        field_simp
      rw [this]
      linarith
    obtain ⟨a1, a2, a3, a4, a5⟩ := key (1 / 2) (by norm_num) (by norm_num)
    obtain ⟨b1, b2, b3, b4, b5⟩ := key (7 / 100) (by norm_num) (by norm_num)
    rw [show (1 + (1 - 1 / 2) / (1 / 2) * (p:ℝ)) = 1 + p by ring] at a5
    rw [show (1 + (1 - 7 / 100) / (7 / 100) * (p:ℝ)) = 1 + 93 / 7 * p by ring] at b5
    refine ⟨_, _, _, _, _, _, ?_, a1, b1, a2, b2, a3, a4, a5, b3, b4, b5, (C72_kl _ T a1 hT).1, (C72_kl _ T a1 hT).2, (C72_kl _ T b1 hT).1, (C72_kl _ T b1 hT).2⟩
    rw [finiteSamplePair_eq, if_neg]
    rintro (h | h)
    · exact a1.det_pos.ne' h
    · exact b1.det_pos.ne' h
  refine ⟨⟨fun h => ?_, fun h => ?_⟩, main⟩
  · by_contra hc
    push Not at hc
    obtain ⟨A, B, kA, kB, lA, lB, e, -⟩ := main hc
    rw [e] at h
    cases h
  · have h0 := (trace_npCov_zero X).2 h
    have hz : npCov X = 0 := psd_zero_of_trace hpsd h0
    rw [finiteSamplePair_eq, if_pos]
    left
    rw [shrinkIso_symm hpsd.1, h0, hz]
    haveI : Nonempty (Fin p) := ⟨⟨0, hp⟩⟩
    simp [det_zero]

/-- C105 (finding): the intended order `KL(A) < KL(B)` ("A good, B bad") is not a property of the construction: whenever the sample
covariance equals the truth and the truth is not a multiple of the identity, the "bad" estimate is strictly closer. -/
theorem C105_pair_reversed (hp : 1 ≤ p) (T : Matrix (Fin p) (Fin p) ℝ) (hT : PD T) (X : List (Fin p → ℝ)) (hX : npCov X = T)
    (hne : ∀ c : ℝ, T ≠ c • 1) :
    ∃ (A B : Matrix (Fin p) (Fin p) ℝ) (kA kB : ℝ), finiteSamplePair T X = .ok ((A, B), (kA, kB)) ∧ kB < kA := by
  have hp0 : (0:ℝ) < p := by exact_mod_cast hp
  have htr : 0 < T.trace := by
    refine lt_of_le_of_ne hT.psd.trace_nonneg fun h => hne 0 ?_
    rw [zero_smul]; exact psd_zero_of_trace hT.psd h.symm
  let P : Matrix (Fin p) (Fin p) ℝ := (T.trace / p) • 1 - T
  have hP : Symm P := fun i j => by simp only [P, Matrix.sub_apply, Matrix.smul_apply, hT.1 i j, one_apply, eq_comm]
  have e : ∀ a : ℝ, shrinkIso T a = T + a • P := fun a => by
    rw [shrinkIso_symm hT.1]; simp only [P, smul_sub, smul_smul, sub_smul, one_smul]; abel
  have pd : ∀ a : ℝ, 0 < a → a ≤ 1 → PD (shrinkIso T a) := fun a h0 h1 => by
    obtain ⟨e1, e2, e3⟩ := C90_estimates hp X a h0.le h1
    rw [hX] at e1 e2 e3
    exact e3.pd e1 (by positivity)
  have hA := pd (1 / 2) (by norm_num) (by norm_num)
  have hB := pd (7 / 100) (by norm_num) (by norm_num)
  refine ⟨shrinkIso T (1 / 2), shrinkIso T (7 / 100), kl (shrinkIso T (1 / 2)) T, kl (shrinkIso T (7 / 100)) T, ?_, ?_⟩
  · rw [finiteSamplePair_eq, hX, if_neg]
    rintro (h | h)
    · exact hA.det_pos.ne' h
    · exact hB.det_pos.ne' h
  · rw [e] at hA hB ⊢
    rw [e]
    exact (kl_ray hT hP (by norm_num) (by norm_num) hB hA).2 fun h => hne (T.trace / p) (sub_eq_zero.1 h).symm

/-! ### Non-vacuity -/

/-- A training set whose sample covariance is the spiked truth with `p = 4`, three spikes of 12 and bulk 0.4. -/
noncomputable def spikedRows : List (Fin 4 → ℝ) :=
  [![√48, 0, 0, 0], ![-√48, 0, 0, 0], ![0, √48, 0, 0], ![0, -√48, 0, 0], ![0, 0, √48, 0], ![0, 0, -√48, 0],
   ![0, 0, 0, √(8 / 5)], ![0, 0, 0, -√(8 / 5)]]

theorem spikedRows_cov : npCov spikedRows = diagonal ![12, 12, 12, 4 / 10] := by
  have h1 : √48 * √48 = (48:ℝ) := Real.mul_self_sqrt (by norm_num)
  have h2 : √(8 / 5) * √(8 / 5) = (8 / 5 : ℝ) := Real.mul_self_sqrt (by norm_num)
  unfold spikedRows
  generalize √48 = a at *
  generalize √(8 / 5) = b at *
  ext i j
  fin_cases i <;> fin_cases j <;> simp [npCov, npMean] <;> norm_num <;> linarith

example : ∃ (A B : Matrix (Fin 4) (Fin 4) ℝ) (kA kB : ℝ), finiteSamplePair (diagonal ![12, 12, 12, 4 / 10]) spikedRows = .ok ((A, B), (kA, kB)) ∧ kB < kA := by
  refine C105_pair_reversed (by norm_num) _ ?_ _ spikedRows_cov fun c h => ?_
  · refine ⟨fun i j => by rw [diagonal_apply, diagonal_apply]; by_cases h : i = j <;> simp [h, eq_comm], fun x hx => ?_⟩
    have e : quad (diagonal ![12, 12, 12, 4 / 10]) x = 12 * x 0 ^ 2 + 12 * x 1 ^ 2 + 12 * x 2 ^ 2 + 4 / 10 * x 3 ^ 2 := by
      simp [quad, mulVec_diagonal, dotProduct, Fin.sum_univ_four]; ring
    rw [e]
    obtain ⟨i, hi⟩ := Function.ne_iff.1 hx
    have := sq_pos_of_ne_zero hi
    fin_cases i <;> simp at this <;> nlinarith [sq_nonneg (x 0), sq_nonneg (x 1), sq_nonneg (x 2), sq_nonneg (x 3)]
  · have h0 := congrFun (congrFun h 0) 0
    have h3 := congrFun (congrFun h 3) 3
    simp at h0 h3
    rw [← h0] at h3
    norm_num at h3

open Precise.Power in
/-- Two groups of one variable, three gammas, one trial. -/
example : ∃ a : ℝ → ℝ, structuredPower Lapack.exact 2 1 (1 / 2) (1 / 5) (1 / 20) (1 / 5) [1, 1 / 2, 0] [orderTrial] =
    .ok ([1, 1 / 2, 0].map fun x => (x, a x)) := by
  obtain ⟨a, h, -⟩ := C105_structured Lapack.exact (p := 2) (by norm_num) 2 1 (by norm_num) (1 / 2) (1 / 5) (1 / 20) (1 / 5) [1, 1 / 2, 0]
    (by intro x hx; simp at hx; rcases hx with rfl | rfl | rfl <;> norm_num) [orderTrial] (by simp) (by simp [orderTrial])
  exact ⟨a, h⟩

end Precise.Theory
