import Verif.Props.PowerProject
import Verif.Props.AssessProper

/-!
# C80: the judges of `research/metric_power.py`, and C81: the power experiment
-/

set_option linter.all false

open Matrix MeasureTheory ProbabilityTheory

namespace Precise.Power
open Precise Spec Obj

section General
variable {ι : Type} [Fintype ι] [DecidableEq ι] {Ω : Type} [MeasurableSpace Ω] {P : Measure Ω} {n : ℕ} {X : Fin n → Ω → ι → ℝ}
  {S : Matrix ι ι ℝ}

/-- Linear functionals of the sample second-moment matrix have the expectation they should. -/
theorem rows_moment (h : TestRows P X S) (hn : 1 ≤ n) (A : Matrix ι ι ℝ) :
    Integrable (fun ω => (A * secondMoment (rows X ω)).trace) P ∧ ∫ ω, (A * secondMoment (rows X ω)).trace ∂P = (A * S).trace := by
  have hn0 : (n : ℝ) ≠ 0 := by exact_mod_cast (by omega : n ≠ 0)
  have e : ∀ ω, (A * secondMoment (rows X ω)).trace = ∑ i, ∑ j, ∑ t, A i j / n * (X t ω j * X t ω i) := by
    intro ω
    simp only [trace, diag_apply, mul_apply]
    refine Finset.sum_congr rfl fun i _ => Finset.sum_congr rfl fun j _ => ?_
    simp only [secondMoment, of_apply, rows, List.map_ofFn, List.sum_ofFn, List.length_ofFn, Function.comp]
    rw [← Finset.mul_sum]; ring
  have hi : ∀ i j t, Integrable (fun ω => A i j / n * (X t ω j * X t ω i)) P := fun i j t => (h.int t j i).const_mul _
  have hi2 : ∀ i j, Integrable (fun ω => ∑ t, A i j / n * (X t ω j * X t ω i)) P := fun i j => integrable_finsetSum _ fun t _ => hi i j t
  have hi3 : ∀ i, Integrable (fun ω => ∑ j, ∑ t, A i j / n * (X t ω j * X t ω i)) P := fun i => integrable_finsetSum _ fun j _ => hi2 i j
  simp only [e]
  refine ⟨integrable_finsetSum _ fun i _ => hi3 i, ?_⟩
  rw [integral_finsetSum _ fun i _ => hi3 i]
  simp only [trace, diag_apply, mul_apply]
  refine Finset.sum_congr rfl fun i _ => ?_
  rw [integral_finsetSum _ fun j _ => hi2 i j]
  refine Finset.sum_congr rfl fun j _ => ?_
  rw [integral_finsetSum _ fun t _ => hi i j t]
  simp only [integral_const_mul, h.moment]
  simp
  field_simp

theorem rows_ne (hn : 1 ≤ n) (ω : Ω) : rows X ω ≠ [] := by
  have : (rows X ω).length = n := by simp [rows]
  intro h; rw [h] at this; simp at this; omega

theorem loglik_pd {c : Matrix ι ι ℝ} (h : PD c) (xs : List (ι → ℝ)) (hx : xs ≠ []) :
    loglik c xs = .ok (-(1/2) * (c⁻¹ * secondMoment xs).trace - (1/2) * Real.log c.det) := by
  have hn : (xs.length : ℝ) ≠ 0 := by simpa using hx
  unfold loglik
  rw [if_neg h.det_pos.ne']
  simp only []
  congr 1
  have e1 := meanLogLik_zero_eq h xs hx
  unfold meanLogLik at e1
  simp only [log_gaussDensity 0 h, sub_zero] at e1
  have hd : Real.log |(c⁻¹).det| = -Real.log c.det := by
    rw [det_nonsing_inv, Ring.inverse_eq_inv', abs_of_pos (inv_pos.2 h.det_pos), Real.log_inv]
  have e2 : ((xs.map fun x => (1/2) * Real.log |(c⁻¹).det| - (1/2) * mahaRow c⁻¹ x).sum / (xs.length : ℝ)) =
      (xs.map fun x => -(1/2) * quad c⁻¹ x - (1/2) * (Fintype.card ι * Real.log (2 * Real.pi) + Real.log c.det)).sum / (xs.length : ℝ)
        + (1/2) * (Fintype.card ι * Real.log (2 * Real.pi)) := by
    have : ∀ x : ι → ℝ, (1/2) * Real.log |(c⁻¹).det| - (1/2) * mahaRow c⁻¹ x = (-(1/2) * quad c⁻¹ x
        - (1/2) * (Fintype.card ι * Real.log (2 * Real.pi) + Real.log c.det)) + (1/2) * (Fintype.card ι * Real.log (2 * Real.pi)) := fun x => by
      rw [mahaRow_eq, hd]; ring
    simp only [this]
    rw [List.sum_map_add]
    simp
    field_simp
  rw [e2]
  linarith

theorem kl_pd {a : Matrix ι ι ℝ} (hS : PD S) (ha : PD a) :
    kl S a = .ok (((1/2) * ((a⁻¹ * S).trace - Fintype.card ι + Real.log a.det - Real.log S.det) : ℝ) : WithTop ℝ) := by
  unfold kl
  rw [if_neg ha.det_pos.ne', if_neg hS.det_pos.ne', abs_of_pos ha.det_pos, abs_of_pos hS.det_pos]

/-- C80: on positive definite matrices the reference ordering `_kl` is finite, non-negative, zero only at the truth … -/
theorem C80_kl {a : Matrix ι ι ℝ} (hS : PD S) (ha : PD a) :
    ∃ k : ℝ, kl S a = .ok (k : WithTop ℝ) ∧ 0 ≤ k ∧ (k = 0 ↔ a = S) := by
  refine ⟨_, kl_pd hS ha, ?_, ?_⟩
  · have := (Precise.stein ha.inv hS).1
    rw [det_nonsing_inv, Ring.inverse_eq_inv', Real.log_inv] at this
    linarith
  · constructor
    · intro h
      have := (Precise.stein ha.inv hS).2 (by rw [det_nonsing_inv, Ring.inverse_eq_inv', Real.log_inv]; linarith)
      have h2 := congrArg (fun m => m⁻¹) this
      simpa [nonsing_inv_nonsing_inv a (isUnit_iff_ne_zero.2 ha.det_pos.ne'), nonsing_inv_nonsing_inv S (isUnit_iff_ne_zero.2 hS.det_pos.ne')] using h2
    · rintro rfl
      rw [nonsing_inv_mul a (isUnit_iff_ne_zero.2 ha.det_pos.ne'), trace_one]; ring

/-- C80: … and it is the Kullback–Leibler divergence: the expected log ratio of the two centred normal densities, for every law of the row
with second moments `S`. -/
theorem C80_kl_is_divergence [IsProbabilityMeasure P] {a : Matrix ι ι ℝ} (hS : PD S) (ha : PD a) {X : Fin 1 → Ω → ι → ℝ} (h : TestRows P X S) :
    kl S a = .ok ((∫ ω, (Real.log (gaussDensity 0 S (X 0 ω)) - Real.log (gaussDensity 0 a (X 0 ω))) ∂P : ℝ) : WithTop ℝ) := by
  have e : ∀ c : Matrix ι ι ℝ, PD c → ∀ ω, Real.log (gaussDensity 0 c (X 0 ω)) = -(1/2) * (c⁻¹ * secondMoment (rows X ω)).trace
      - (1/2) * (Fintype.card ι * Real.log (2 * Real.pi) + Real.log c.det) := fun c hc ω => by
    rw [← meanLogLik_zero_eq hc _ (rows_ne le_rfl ω)]
    simp [meanLogLik, rows]
  rw [kl_pd hS ha]
  congr 2
  simp only [e S hS, e a ha]
  obtain ⟨i1, v1⟩ := rows_moment h le_rfl S⁻¹
  obtain ⟨i2, v2⟩ := rows_moment h le_rfl a⁻¹
  have i1' : Integrable (fun ω => -(1/2) * (S⁻¹ * secondMoment (rows X ω)).trace) P := i1.const_mul _
  have i2' : Integrable (fun ω => -(1/2) * (a⁻¹ * secondMoment (rows X ω)).trace) P := i2.const_mul _
  have i1'' : Integrable (fun ω => -(1/2) * (S⁻¹ * secondMoment (rows X ω)).trace
      - (1/2) * (Fintype.card ι * Real.log (2 * Real.pi) + Real.log S.det)) P := i1'.sub (integrable_const _)
  have i2'' : Integrable (fun ω => -(1/2) * (a⁻¹ * secondMoment (rows X ω)).trace
      - (1/2) * (Fintype.card ι * Real.log (2 * Real.pi) + Real.log a.det)) P := i2'.sub (integrable_const _)
  have w1 : ∫ ω, -(1/2) * (S⁻¹ * secondMoment (rows X ω)).trace ∂P = -(1/2) * Fintype.card ι := by
    rw [integral_const_mul, v1, nonsing_inv_mul S (isUnit_iff_ne_zero.2 hS.det_pos.ne'), trace_one]
  have w2 : ∫ ω, -(1/2) * (a⁻¹ * secondMoment (rows X ω)).trace ∂P = -(1/2) * (a⁻¹ * S).trace := by
    rw [integral_const_mul, v2]
  rw [integral_sub i1'' i2'', integral_sub i1' (integrable_const _), integral_sub i2' (integrable_const _), w1, w2,
    integral_const, integral_const]
  simp
  ring

theorem loglik_expect [IsProbabilityMeasure P] (h : TestRows P X S) (hn : 1 ≤ n) {c : Matrix ι ι ℝ} (hc : PD c) {s : Ω → ℝ}
    (hs : ∀ ω, loglik c (rows X ω) = .ok (s ω)) :
    Integrable s P ∧ ∫ ω, s ω ∂P = -(1/2) * (c⁻¹ * S).trace - (1/2) * Real.log c.det := by
  have es : s = fun ω => -(1/2) * (c⁻¹ * secondMoment (rows X ω)).trace - (1/2) * Real.log c.det := funext fun ω => by
    have := (hs ω).symm.trans (loglik_pd hc _ (rows_ne hn ω))
    exact Except.ok.inj this
  obtain ⟨i1, v1⟩ := rows_moment h hn c⁻¹
  rw [es]
  refine ⟨(i1.const_mul _).sub (integrable_const _), ?_⟩
  have i1' : Integrable (fun ω => -(1/2) * (c⁻¹ * secondMoment (rows X ω)).trace) P := i1.const_mul _
  rw [integral_sub i1' (integrable_const _), integral_const_mul, v1]
  simp

/-- C80: the log-likelihood judge ranks, on average, exactly as the exact KL divergence does: whatever the number and the joint law of
the test rows, the difference of the expected scores of two estimates is the difference of their divergences. -/
theorem C80_loglik_orders_by_kl [IsProbabilityMeasure P] (h : TestRows P X S) (hn : 1 ≤ n) {a b : Matrix ι ι ℝ} (hS : PD S) (ha : PD a)
    (hb : PD b) (f g : Ω → ℝ) (hf : ∀ ω, loglik a (rows X ω) = .ok (f ω)) (hg : ∀ ω, loglik b (rows X ω) = .ok (g ω)) :
    Integrable f P ∧ Integrable g P ∧ ∃ ka kb : ℝ, kl S a = .ok (ka : WithTop ℝ) ∧ kl S b = .ok (kb : WithTop ℝ) ∧
      (∫ ω, f ω ∂P) - ∫ ω, g ω ∂P = kb - ka ∧ ((∫ ω, g ω ∂P) < ∫ ω, f ω ∂P ↔ ka < kb) := by
  obtain ⟨i1, v1⟩ := loglik_expect h hn ha hf
  obtain ⟨i2, v2⟩ := loglik_expect h hn hb hg
  refine ⟨i1, i2, _, _, kl_pd hS ha, kl_pd hS hb, ?_, ?_⟩
  · rw [v1, v2]; ring
  · rw [v1, v2]; constructor <;> intro hh <;> linarith

/-! ### Scoring on subspaces -/

variable {κ : Type} [Fintype κ] [DecidableEq κ]

theorem kproj_ok (c : Matrix ι ι ℝ) (xs : List (ι → ℝ)) (v : Matrix κ ι ℝ → ℝ) (subs : List (Matrix κ ι ℝ))
    (h : ∀ W ∈ subs, kprojTerm c xs W = .ok (v W)) : kprojLoglik c xs subs = .ok ((subs.map v).sum / subs.length) := by
  have key : ∀ (l : List (Matrix κ ι ℝ)) (z : ℝ), (∀ W ∈ l, kprojTerm c xs W = .ok (v W)) →
      l.foldlM (fun total W => do return total + (← kprojTerm c xs W)) z = (.ok (z + (l.map v).sum) : Except PyErr ℝ) := by
    intro l
    induction l with
    | nil => intro z _; simp [pure, Except.pure]
    | cons W l ih =>
      intro z hl
      rw [List.foldlM_cons, hl W (by simp)]
      simp only [bind, Except.bind, pure, Except.pure] at ih ⊢
      rw [ih _ fun V hV => hl V (by simp [hV])]
      simp [add_assoc]
  unfold kprojLoglik
  rw [key subs 0 h]
  simp [bind, Except.bind, pure, Except.pure]

theorem pd_project {c : Matrix ι ι ℝ} (h : PD c) {W : Matrix κ ι ℝ} (hW : W * Wᵀ = 1) : PD (W * c * Wᵀ) :=
  h.congr_inj W fun x hx => by
    have := congrArg (fun z => W *ᵥ z) hx
    simpa [mulVec_mulVec, hW] using this

theorem secondMoment_map (W : Matrix κ ι ℝ) (xs : List (ι → ℝ)) :
    secondMoment (xs.map fun x => W *ᵥ x) = W * secondMoment xs * Wᵀ := by
  refine eq_of_quad_eq (symm_secondMoment _) ((symm_secondMoment xs).congr W) fun u => ?_
  rw [quad_congr, quad_secondMoment, quad_secondMoment, List.map_map, List.length_map]
  congr 3
  funext x
  simp only [Function.comp]
  congr 1
  show W *ᵥ x ⬝ᵥ u = x ⬝ᵥ Wᵀ *ᵥ u
  rw [dotProduct_mulVec, vecMul_transpose]

/-- C80: with orthonormal bases of the whole space (`k = p`) the subspace judge is the full log-likelihood, whatever the rotations. -/
theorem C80_kproj_full {c : Matrix ι ι ℝ} (h : PD c) (xs : List (ι → ℝ)) (hx : xs ≠ []) (subs : List (Matrix κ ι ℝ)) (hs : subs ≠ [])
    (ho : ∀ W ∈ subs, W * Wᵀ = 1 ∧ Wᵀ * W = 1) : kprojLoglik c xs subs = loglik c xs := by
  have hn : (subs.length : ℝ) ≠ 0 := by simpa using hs
  rw [kproj_ok c xs (fun _ => -(1/2) * (c⁻¹ * secondMoment xs).trace - (1/2) * Real.log c.det) subs, loglik_pd h xs hx]
  · simp; field_simp
  · intro W hW
    obtain ⟨h1, h2⟩ := ho W hW
    unfold kprojTerm
    have hu := isUnit_iff_ne_zero.2 h.det_pos.ne'
    rw [loglik_pd (pd_project h h1) _ (by simpa using hx), secondMoment_map]
    have hinv : (W * c * Wᵀ)⁻¹ = W * c⁻¹ * Wᵀ := by
      refine inv_eq_left_inv ?_
      calc W * c⁻¹ * Wᵀ * (W * c * Wᵀ) = W * (c⁻¹ * (Wᵀ * W) * c) * Wᵀ := by simp only [Matrix.mul_assoc]
        _ = 1 := by rw [h2, Matrix.mul_one, nonsing_inv_mul c hu, Matrix.mul_one, h1]
    have htr : (W * c⁻¹ * Wᵀ * (W * secondMoment xs * Wᵀ)).trace = (c⁻¹ * secondMoment xs).trace := by
      calc (W * c⁻¹ * Wᵀ * (W * secondMoment xs * Wᵀ)).trace = (W * (c⁻¹ * (Wᵀ * W) * secondMoment xs) * Wᵀ).trace := by
            simp only [Matrix.mul_assoc]
        _ = (c⁻¹ * secondMoment xs).trace := by rw [h2, Matrix.mul_one, trace_mul_comm, ← Matrix.mul_assoc, h2, Matrix.one_mul]
    have hdet : (W * c * Wᵀ).det = c.det := by
      rw [det_conj_of_mul_eq_one h1 h2]
    rw [hinv, htr, hdet]

theorem testRows_project (h : TestRows P X S) (W : Matrix κ ι ℝ) : TestRows P (fun t ω => W *ᵥ X t ω) (W * S * Wᵀ) := by
  have e : ∀ t ω k l, (W *ᵥ X t ω) k * (W *ᵥ X t ω) l = ∑ i, ∑ j, W k i * W l j * (X t ω i * X t ω j) := fun t ω k l => by
    simp only [mulVec, dotProduct]
    rw [Finset.sum_mul_sum]
    exact Finset.sum_congr rfl fun i _ => Finset.sum_congr rfl fun j _ => by ring
  have hi : ∀ t k l i j, Integrable (fun ω => W k i * W l j * (X t ω i * X t ω j)) P := fun t k l i j => (h.int t i j).const_mul _
  have hi2 : ∀ t k l i, Integrable (fun ω => ∑ j, W k i * W l j * (X t ω i * X t ω j)) P := fun t k l i => integrable_finsetSum _ fun j _ => hi t k l i j
  refine ⟨fun t k l => ?_, fun t k l => ?_⟩
  · simp only [e]
    exact integrable_finsetSum _ fun i _ => hi2 t k l i
  · simp only [e]
    rw [integral_finsetSum _ fun i _ => hi2 t k l i]
    have : (W * S * Wᵀ) k l = ∑ i, ∑ j, W k i * W l j * S i j := by
      simp only [mul_apply, transpose_apply, Finset.sum_mul]
      rw [Finset.sum_comm]
      exact Finset.sum_congr rfl fun i _ => Finset.sum_congr rfl fun j _ => by ring
    rw [this]
    refine Finset.sum_congr rfl fun i _ => ?_
    rw [integral_finsetSum _ fun j _ => hi t k l i j]
    exact Finset.sum_congr rfl fun j _ => by rw [integral_const_mul, h.moment]

theorem integral_list_sum {α : Type} (v : α → Ω → ℝ) (l : List α) (h : ∀ a ∈ l, Integrable (v a) P) :
    Integrable (fun ω => (l.map fun a => v a ω).sum) P ∧ ∫ ω, (l.map fun a => v a ω).sum ∂P = (l.map fun a => ∫ ω, v a ω ∂P).sum := by
  induction l with
  | nil => simp
  | cons a l ih =>
    obtain ⟨i, e⟩ := ih fun b hb => h b (by simp [hb])
    have ia := h a (by simp)
    simp only [List.map_cons, List.sum_cons]
    refine ⟨ia.add i, ?_⟩
    rw [integral_add ia i, e]

theorem list_sum_le_iff {α : Type} (u v : α → ℝ) (l : List α) (h : ∀ a ∈ l, u a ≤ v a) :
    (l.map u).sum ≤ (l.map v).sum ∧ ((l.map u).sum = (l.map v).sum ↔ ∀ a ∈ l, u a = v a) := by
  induction l with
  | nil => simp
  | cons a l ih =>
    obtain ⟨i, e⟩ := ih fun b hb => h b (by simp [hb])
    have ia := h a (by simp)
    simp only [List.map_cons, List.sum_cons, List.forall_mem_cons]
    refine ⟨by linarith, ?_, ?_⟩
    · intro hh
      exact ⟨by linarith, e.1 (by linarith)⟩
    · rintro ⟨h1, h2⟩
      rw [h1, e.2 h2]

theorem gap_pd {a : Matrix ι ι ℝ} (hS : PD S) (ha : PD a) :
    -(1/2) * (a⁻¹ * S).trace - (1/2) * Real.log a.det ≤ -(1/2) * (S⁻¹ * S).trace - (1/2) * Real.log S.det ∧
    (-(1/2) * (a⁻¹ * S).trace - (1/2) * Real.log a.det = -(1/2) * (S⁻¹ * S).trace - (1/2) * Real.log S.det ↔ a = S) := by
  obtain ⟨k, hk, h0, hz⟩ := C80_kl hS ha
  have := Except.ok.inj (hk.symm.trans (kl_pd hS ha))
  have : k = (1/2) * ((a⁻¹ * S).trace - Fintype.card ι + Real.log a.det - Real.log S.det) := by exact_mod_cast this
  rw [nonsing_inv_mul S (isUnit_iff_ne_zero.2 hS.det_pos.ne'), trace_one, ← hz]
  refine ⟨by linarith, fun h => by linarith, fun h => by linarith⟩

/-- C80: subspace scoring is proper: on average no estimate beats the truth, and an estimate does as well only if it agrees with the truth
on every subspace. -/
theorem C80_kproj_proper [IsProbabilityMeasure P] (h : TestRows P X S) (hn : 1 ≤ n) {a : Matrix ι ι ℝ} (hS : PD S) (ha : PD a)
    (subs : List (Matrix κ ι ℝ)) (hs : subs ≠ []) (ho : ∀ W ∈ subs, W * Wᵀ = 1) (f g : Ω → ℝ)
    (hf : ∀ ω, kprojLoglik a (rows X ω) subs = .ok (f ω)) (hg : ∀ ω, kprojLoglik S (rows X ω) subs = .ok (g ω)) :
    Integrable f P ∧ Integrable g P ∧ ∫ ω, f ω ∂P ≤ ∫ ω, g ω ∂P ∧
      ((∫ ω, f ω ∂P) = ∫ ω, g ω ∂P ↔ ∀ W ∈ subs, W * a * Wᵀ = W * S * Wᵀ) := by
  have hl : (0 : ℝ) < subs.length := by
    have := List.length_pos_iff.2 hs
    exact_mod_cast this
  have key : ∀ c : Matrix ι ι ℝ, PD c → ∀ s : Ω → ℝ, (∀ ω, kprojLoglik c (rows X ω) subs = .ok (s ω)) →
      Integrable s P ∧ ∫ ω, s ω ∂P = (subs.map fun W => -(1/2) * ((W * c * Wᵀ)⁻¹ * (W * S * Wᵀ)).trace - (1/2) * Real.log (W * c * Wᵀ).det).sum
        / subs.length := by
    intro c hc s hs
    let v : Matrix κ ι ℝ → Ω → ℝ := fun W ω => -(1/2) * ((W * c * Wᵀ)⁻¹ * secondMoment ((rows X ω).map fun x => W *ᵥ x)).trace
      - (1/2) * Real.log (W * c * Wᵀ).det
    have hr : ∀ (W : Matrix κ ι ℝ) ω, rows (fun t ω => W *ᵥ X t ω) ω = (rows X ω).map fun x => W *ᵥ x := fun W ω => by
      simp [rows, List.map_ofFn, Function.comp_def]
    have hv : ∀ W ∈ subs, ∀ ω, kprojTerm c (rows X ω) W = .ok (v W ω) := fun W hW ω => by
      unfold kprojTerm
      exact loglik_pd (pd_project hc (ho W hW)) _ (by simpa using rows_ne hn ω)
    have hV : ∀ W ∈ subs, Integrable (v W) P ∧ ∫ ω, v W ω ∂P = -(1/2) * ((W * c * Wᵀ)⁻¹ * (W * S * Wᵀ)).trace
        - (1/2) * Real.log (W * c * Wᵀ).det := fun W hW =>
      loglik_expect (testRows_project h W) hn (pd_project hc (ho W hW)) fun ω => by
        rw [hr]; exact hv W hW ω
    have es : s = fun ω => (subs.map fun W => v W ω).sum / subs.length := funext fun ω =>
      Except.ok.inj ((hs ω).symm.trans (kproj_ok c _ (fun W => v W ω) subs fun W hW => hv W hW ω))
    obtain ⟨i, e⟩ := integral_list_sum v subs fun W hW => (hV W hW).1
    rw [es]
    refine ⟨i.div_const _, ?_⟩
    rw [integral_div, e]
    congr 2
    exact List.map_congr_left fun W hW => (hV W hW).2
  obtain ⟨i1, e1⟩ := key a ha f hf
  obtain ⟨i2, e2⟩ := key S hS g hg
  obtain ⟨l1, l2⟩ := list_sum_le_iff (fun W : Matrix κ ι ℝ => -(1/2) * ((W * a * Wᵀ)⁻¹ * (W * S * Wᵀ)).trace - (1/2) * Real.log (W * a * Wᵀ).det)
    (fun W => -(1/2) * ((W * S * Wᵀ)⁻¹ * (W * S * Wᵀ)).trace - (1/2) * Real.log (W * S * Wᵀ).det) subs
    fun W hW => (gap_pd (pd_project hS (ho W hW)) (pd_project ha (ho W hW))).1
  refine ⟨i1, i2, ?_, ?_⟩
  · rw [e1, e2]
    exact div_le_div_of_nonneg_right l1 hl.le
  · rw [e1, e2, div_left_inj' hl.ne', l2]
    exact forall₂_congr fun W hW => (gap_pd (pd_project hS (ho W hW)) (pd_project ha (ho W hW))).2

end General

end Precise.Power
