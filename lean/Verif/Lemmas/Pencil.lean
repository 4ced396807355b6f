import Verif.Props.TheoryOperator
import Mathlib.Analysis.SpecialFunctions.Log.Deriv
import Mathlib.Analysis.Calculus.Deriv.Inv

/-!
# A positive definite and a symmetric matrix, diagonalized together; the Gaussian divergence along a ray
-/

set_option linter.all false

open Matrix

namespace Precise.Theory

open Precise.Spec

variable {ι : Type} [Fintype ι] [DecidableEq ι]

theorem sim_diag {T P : Matrix ι ι ℝ} (hT : PD T) (hP : Symm P) :
    ∃ (Q : Matrix ι ι ℝ) (l : ι → ℝ), IsUnit Q.det ∧ T = Q * Qᵀ ∧ P = Q * diagonal l * Qᵀ := by
  obtain ⟨r, hr, hrr⟩ := hT.exists_sqrt
  have hu : IsUnit r.det := isUnit_iff_ne_zero.2 hr.det_pos.ne'
  have hri : r⁻¹ᵀ = r⁻¹ := by rw [transpose_nonsing_inv, hr.1.transpose]
  have hs : Symm (r⁻¹ * P * r⁻¹) := by have := hP.congr r⁻¹; rwa [hri] at this
  obtain ⟨⟨w, v⟩, hv, hw⟩ := exists_spec hs
  have hvc := orth_comm hv
  refine ⟨r * v, w, ?_, ?_, ?_⟩
  · rw [det_mul]
    exact hu.mul (isUnit_iff_ne_zero.2 fun h => by
      have := congrArg det hv
      rw [det_mul, det_transpose, h, det_one] at this; norm_num at this)
  · rw [transpose_mul, hr.1.transpose, Matrix.mul_assoc, ← Matrix.mul_assoc v, hvc, Matrix.one_mul, hrr]
  · have : r * v * diagonal w * (r * v)ᵀ = r * (v * diagonal w * vᵀ) * r := by
      rw [transpose_mul, hr.1.transpose]; simp only [Matrix.mul_assoc]
    rw [this]
    have h2 : v * diagonal w * vᵀ = r⁻¹ * P * r⁻¹ := hw.symm
    rw [h2, Matrix.mul_assoc, Matrix.mul_assoc, nonsing_inv_mul r hu, Matrix.mul_one, ← Matrix.mul_assoc, mul_nonsing_inv r hu, Matrix.one_mul]

section
variable {Q : Matrix ι ι ℝ} (hQ : IsUnit Q.det) (l : ι → ℝ)
include hQ

theorem ray_eq (t : ℝ) : Q * Qᵀ + t • (Q * diagonal l * Qᵀ) = Q * diagonal (fun i => 1 + t * l i) * Qᵀ := by
  have : diagonal (fun i => 1 + t * l i) = (1 : Matrix ι ι ℝ) + t • diagonal l := by
    rw [← diagonal_one, ← diagonal_smul, diagonal_add]; rfl
  rw [this, Matrix.mul_add, Matrix.mul_one, Matrix.add_mul, Matrix.mul_smul, Matrix.smul_mul]

theorem ray_pd (d : ι → ℝ) : PD (Q * diagonal d * Qᵀ) ↔ ∀ i, 0 < d i := by
  have hq : ∀ x, quad (Q * diagonal d * Qᵀ) x = ∑ i, d i * (Qᵀ *ᵥ x) i ^ 2 := by
    intro x
    rw [quad_congr]
    simp only [quad, dotProduct, mulVec_diagonal]
    exact Finset.sum_congr rfl fun i _ => by ring
  constructor
  · intro h i
    have hQt : IsUnit Qᵀ.det := by rwa [det_transpose]
    have e : Qᵀ *ᵥ (Qᵀ⁻¹ *ᵥ Pi.single i 1) = Pi.single i 1 := by rw [mulVec_mulVec, mul_nonsing_inv _ hQt, one_mulVec]
    have hne : Qᵀ⁻¹ *ᵥ Pi.single i (1:ℝ) ≠ 0 := by
      intro h0
      rw [h0, mulVec_zero] at e
      have := congrFun e i
      simp at this
    have := h.2 _ hne
    rw [hq, e, Finset.sum_eq_single i] at this
    · simpa using this
    · intro b _ hb; simp [Pi.single_eq_of_ne hb]
    · simp
  · intro h
    refine ⟨(symm_diagonal d).congr Q, fun x hx => ?_⟩
    rw [hq]
    have hne : Qᵀ *ᵥ x ≠ 0 := by
      intro h0
      apply hx
      have hQt : IsUnit Qᵀ.det := by rwa [det_transpose]
      have := congrArg (fun y => Qᵀ⁻¹ *ᵥ y) h0
      simpa [mulVec_mulVec, nonsing_inv_mul _ hQt] using this
    obtain ⟨i, hi⟩ := Function.ne_iff.1 hne
    refine Finset.sum_pos' (fun j _ => mul_nonneg (h j).le (sq_nonneg _)) ⟨i, Finset.mem_univ i, ?_⟩
    exact mul_pos (h i) (by simpa using sq_pos_of_ne_zero hi)

theorem ray_det (d : ι → ℝ) : (Q * diagonal d * Qᵀ).det = (Q * Qᵀ).det * ∏ i, d i := by
  rw [det_mul, det_mul, det_mul, det_transpose, det_diagonal]; ring

theorem ray_inv {d : ι → ℝ} (hd : ∀ i, d i ≠ 0) : (Q * diagonal d * Qᵀ)⁻¹ = Qᵀ⁻¹ * diagonal (fun i => (d i)⁻¹) * Q⁻¹ := by
  have hQt : IsUnit Qᵀ.det := by rwa [det_transpose]
  apply inv_eq_right_inv
  calc Q * diagonal d * Qᵀ * (Qᵀ⁻¹ * diagonal (fun i => (d i)⁻¹) * Q⁻¹)
      = Q * diagonal d * (Qᵀ * Qᵀ⁻¹) * diagonal (fun i => (d i)⁻¹) * Q⁻¹ := by simp only [Matrix.mul_assoc]
    _ = Q * (diagonal d * diagonal (fun i => (d i)⁻¹)) * Q⁻¹ := by rw [mul_nonsing_inv _ hQt, Matrix.mul_one]; simp only [Matrix.mul_assoc]
    _ = 1 := by
      rw [diagonal_mul_diagonal]
      have : (diagonal fun i => d i * (d i)⁻¹) = (1 : Matrix ι ι ℝ) := by
        rw [← diagonal_one]; congr 1; funext i; exact mul_inv_cancel₀ (hd i)
      rw [this, Matrix.mul_one, mul_nonsing_inv _ hQ]

theorem ray_trace {d : ι → ℝ} (hd : ∀ i, d i ≠ 0) (M : Matrix ι ι ℝ) :
    ((Q * diagonal d * Qᵀ)⁻¹ * M).trace = ∑ i, (d i)⁻¹ * (Q⁻¹ * M * Qᵀ⁻¹) i i := by
  rw [ray_inv hQ hd]
  have : (Qᵀ⁻¹ * diagonal (fun i => (d i)⁻¹) * Q⁻¹ * M).trace = (diagonal (fun i => (d i)⁻¹) * (Q⁻¹ * M * Qᵀ⁻¹)).trace := by
    rw [Matrix.mul_assoc, Matrix.mul_assoc, trace_mul_comm]; simp only [Matrix.mul_assoc]
  rw [this, trace]
  exact Finset.sum_congr rfl fun i _ => by rw [diag_apply, diagonal_mul]

theorem ray_kl {d : ι → ℝ} (hd : ∀ i, 0 < d i) (T : Matrix ι ι ℝ) :
    kl (Q * diagonal d * Qᵀ) T = 1 / 2 * (∑ i, (d i)⁻¹ * (Q⁻¹ * T * Qᵀ⁻¹) i i - Fintype.card ι +
      (Real.log |(Q * Qᵀ).det| + ∑ i, Real.log (d i)) - Real.log |T.det|) := by
  unfold kl
  have h0 : (Q * Qᵀ).det ≠ 0 := by rw [det_mul, det_transpose]; exact mul_ne_zero hQ.ne_zero hQ.ne_zero
  have hp : 0 < ∏ i, d i := Finset.prod_pos fun i _ => hd i
  rw [ray_trace hQ (fun i => (hd i).ne'), ray_det hQ, abs_mul, Real.log_mul (abs_ne_zero.2 h0) (abs_ne_zero.2 hp.ne'), abs_of_pos hp,
    Real.log_prod (fun i _ => (hd i).ne')]

end

/-- The divergence grows along any ray from the truth. -/
theorem kl_ray {T P : Matrix ι ι ℝ} (hT : PD T) (hP : Symm P) {a b : ℝ} (h0 : 0 ≤ a) (hab : a < b) (hA : PD (T + a • P)) (hB : PD (T + b • P)) :
    kl (T + a • P) T ≤ kl (T + b • P) T ∧ (P ≠ 0 → kl (T + a • P) T < kl (T + b • P) T) := by
  obtain ⟨Q, l, hQ, rfl, rfl⟩ := sim_diag hT hP
  rw [ray_eq hQ] at hA hB ⊢
  rw [ray_eq hQ]
  have da := (ray_pd hQ _).1 hA
  have db := (ray_pd hQ _).1 hB
  have hQt : IsUnit Qᵀ.det := by rwa [det_transpose]
  have hone : Q⁻¹ * (Q * Qᵀ) * Qᵀ⁻¹ = 1 := by
    rw [← Matrix.mul_assoc, nonsing_inv_mul _ hQ, Matrix.one_mul, mul_nonsing_inv _ hQt]
  rw [ray_kl hQ da, ray_kl hQ db, hone]
  simp only [one_apply_eq, mul_one]
  have key : ∀ i, (1 + a * l i)⁻¹ + Real.log (1 + a * l i) ≤ (1 + b * l i)⁻¹ + Real.log (1 + b * l i) ∧
      (l i ≠ 0 → (1 + a * l i)⁻¹ + Real.log (1 + a * l i) < (1 + b * l i)⁻¹ + Real.log (1 + b * l i)) := by
    intro i
    have hu := da i
    have hv := db i
    set u := 1 + a * l i with hu'
    set v := 1 + b * l i with hv'
    have huv : 0 ≤ (v - u) * (u - 1) := by
      have : (v - u) * (u - 1) = (b - a) * a * (l i) ^ 2 := by rw [hu', hv']; ring
      rw [this]; exact mul_nonneg (mul_nonneg (by linarith) h0) (sq_nonneg _)
    have e : v⁻¹ - u⁻¹ = -((v - u) / (u * v)) := by field_simp; ring
    have e2 : (v - u) / v - (v - u) / (u * v) = (v - u) * (u - 1) / (u * v) := by field_simp
    have e3 : 0 ≤ (v - u) * (u - 1) / (u * v) := div_nonneg huv (mul_pos hu hv).le
    have e4 : 1 - (v / u)⁻¹ = (v - u) / v := by rw [inv_div]; field_simp
    have hl : Real.log v - Real.log u = Real.log (v / u) := (Real.log_div hv.ne' hu.ne').symm
    have h1 := Real.one_sub_inv_le_log_of_pos (div_pos hv hu)
    refine ⟨by linarith, fun hne => ?_⟩
    have hne' : u / v ≠ 1 := by
      rw [Ne, div_eq_one_iff_eq hv.ne']
      intro h
      have : (b - a) * l i = 0 := by rw [hu', hv'] at h; linarith
      rcases mul_eq_zero.1 this with h | h
      · linarith
      · exact hne h
    have h2 := Real.log_lt_sub_one_of_pos (div_pos hu hv) hne'
    have h3 : Real.log (u / v) = - Real.log (v / u) := by rw [← Real.log_inv, inv_div]
    have h4 : u / v - 1 = -((v - u) / v) := by field_simp; ring
    linarith
  have hs : ∑ i, (1 + a * l i)⁻¹ + ∑ i, Real.log (1 + a * l i) ≤ ∑ i, (1 + b * l i)⁻¹ + ∑ i, Real.log (1 + b * l i) := by
    rw [← Finset.sum_add_distrib, ← Finset.sum_add_distrib]
    exact Finset.sum_le_sum fun i _ => (key i).1
  refine ⟨by linarith, fun hne => ?_⟩
  have : ∃ i, l i ≠ 0 := by
    by_contra hn
    push Not at hn
    apply hne
    have : l = fun _ => 0 := funext hn
    rw [this]; simp
  obtain ⟨i, hi⟩ := this
  have hs' : ∑ i, (1 + a * l i)⁻¹ + ∑ i, Real.log (1 + a * l i) < ∑ i, (1 + b * l i)⁻¹ + ∑ i, Real.log (1 + b * l i) := by
    rw [← Finset.sum_add_distrib, ← Finset.sum_add_distrib]
    exact Finset.sum_lt_sum (fun i _ => (key i).1) ⟨i, Finset.mem_univ i, (key i).2 hi⟩
  linarith

/-- The derivative of the divergence in a symmetric direction. -/
theorem kl_hasDerivAt {A E : Matrix ι ι ℝ} (hA : PD A) (hE : Symm E) (T : Matrix ι ι ℝ) :
    HasDerivAt (fun t : ℝ => kl (A + t • E) T) (1 / 2 * ((A⁻¹ - A⁻¹ * T * A⁻¹) * E).trace) 0 := by
  obtain ⟨Q, l, hQ, rfl, rfl⟩ := sim_diag hA hE
  have hQt : IsUnit Qᵀ.det := by rwa [det_transpose]
  have hev : ∀ᶠ t : ℝ in nhds 0, ∀ i, 0 < 1 + t * l i := by
    rw [Filter.eventually_all]
    intro i
    have hc : Continuous fun t : ℝ => 1 + t * l i := by fun_prop
    exact hc.continuousAt.eventually (by simpa using lt_mem_nhds (by norm_num : (0:ℝ) < 1))
  have heq : (fun t : ℝ => kl (Q * Qᵀ + t • (Q * diagonal l * Qᵀ)) T) =ᶠ[nhds 0]
      fun t => 1 / 2 * (∑ i, (1 + t * l i)⁻¹ * (Q⁻¹ * T * Qᵀ⁻¹) i i - Fintype.card ι +
      (Real.log |(Q * Qᵀ).det| + ∑ i, Real.log (1 + t * l i)) - Real.log |T.det|) := by
    filter_upwards [hev] with t ht
    rw [ray_eq hQ, ray_kl hQ ht]
  refine HasDerivAt.congr_of_eventuallyEq ?_ heq
  have hlin : ∀ i, HasDerivAt (fun t : ℝ => 1 + t * l i) (l i) 0 := fun i => by
    simpa using ((hasDerivAt_id (0:ℝ)).mul_const (l i)).const_add 1
  have hinv : ∀ i, HasDerivAt (fun t : ℝ => (1 + t * l i)⁻¹ * (Q⁻¹ * T * Qᵀ⁻¹) i i) (-(l i) * (Q⁻¹ * T * Qᵀ⁻¹) i i) 0 := fun i => by
    have := ((hlin i).inv (by simp)).mul_const ((Q⁻¹ * T * Qᵀ⁻¹) i i)
    simpa using this
  have hlog : ∀ i, HasDerivAt (fun t : ℝ => Real.log (1 + t * l i)) (l i) 0 := fun i => by
    have := (hlin i).log (by simp)
    simpa using this
  have hs1 := HasDerivAt.fun_sum (u := Finset.univ) fun i _ => hinv i
  have hs2 := HasDerivAt.fun_sum (u := Finset.univ) fun i _ => hlog i
  have := ((((hs1.sub_const (Fintype.card ι : ℝ)).add (hs2.const_add (Real.log |(Q * Qᵀ).det|))).sub_const (Real.log |T.det|)).const_mul (1 / 2 : ℝ))
  refine this.congr_deriv ?_
  congr 1
  have hi : (Q * Qᵀ)⁻¹ = Qᵀ⁻¹ * Q⁻¹ := mul_inv_rev _ _
  have e1 : ((Q * Qᵀ)⁻¹ * (Q * diagonal l * Qᵀ)).trace = ∑ i, l i := by
    rw [hi]
    have : Qᵀ⁻¹ * Q⁻¹ * (Q * diagonal l * Qᵀ) = Qᵀ⁻¹ * diagonal l * Qᵀ := by
      calc _ = Qᵀ⁻¹ * (Q⁻¹ * Q) * diagonal l * Qᵀ := by simp only [Matrix.mul_assoc]
        _ = _ := by rw [nonsing_inv_mul _ hQ, Matrix.mul_one]
    rw [this, trace_mul_comm, ← Matrix.mul_assoc, mul_nonsing_inv _ hQt, Matrix.one_mul, trace_diagonal]
  have e2 : ((Q * Qᵀ)⁻¹ * T * (Q * Qᵀ)⁻¹ * (Q * diagonal l * Qᵀ)).trace = ∑ i, l i * (Q⁻¹ * T * Qᵀ⁻¹) i i := by
    rw [hi]
    have : Qᵀ⁻¹ * Q⁻¹ * T * (Qᵀ⁻¹ * Q⁻¹) * (Q * diagonal l * Qᵀ) = Qᵀ⁻¹ * ((Q⁻¹ * T * Qᵀ⁻¹) * diagonal l * Qᵀ) := by
      calc _ = Qᵀ⁻¹ * (Q⁻¹ * T * Qᵀ⁻¹ * (Q⁻¹ * Q) * diagonal l * Qᵀ) := by simp only [Matrix.mul_assoc]
        _ = _ := by rw [nonsing_inv_mul _ hQ, Matrix.mul_one]
    rw [this, trace_mul_comm, Matrix.mul_assoc, mul_nonsing_inv _ hQt, Matrix.mul_one, trace]
    exact Finset.sum_congr rfl fun i _ => by rw [diag_apply, mul_diagonal]; ring
  rw [Matrix.sub_mul, trace_sub, e1, e2]
  simp only [neg_mul, Finset.sum_neg_distrib]
  ring

end Precise.Theory
