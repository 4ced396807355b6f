import Verif.Props.Linalg
import Mathlib.Analysis.MeanInequalities

/-!
# C37: the geodesic step stays between its endpoints
-/

set_option linter.all false

open Matrix

namespace Precise

open Spec

variable {ι : Type} [Fintype ι] [DecidableEq ι] (L : Lapack)

/-- C37: in every direction the variance after a step `g` in [0,1] is at most the weighted average of the (floored) endpoints':
the geodesic lies below the straight line. -/
theorem C37_below_line (A B : Matrix ι ι ℝ) (g : ℝ) (h0 : 0 ≤ g) (h1 : g ≤ 1) :
    Loewner (geodesicStep L A B g) ((1 - g) • makePosDef L A + g • makePosDef L B) := by
  obtain ⟨R, Ri, hR, hRi, hRR, hRRi, hRiR, v, w, hv, hw, hM, hg⟩ := geodesic_facts L A B
  intro x
  have e : makePosDef L B = R * spec v w * R := by
    rw [← hM]
    calc makePosDef L B = (R * Ri) * makePosDef L B * (Ri * R) := by rw [hRRi, hRiR]; simp
      _ = _ := by simp only [Matrix.mul_assoc]
  have e2 : ((1 - g) • makePosDef L A + g • makePosDef L B)
      = R * spec v (fun i => (1 - g) + g * w i) * R := by
    rw [spec_add, spec_smul, Matrix.mul_add, Matrix.add_mul, e, ← hRR]
    have : spec v (fun _ => 1 - g) = (1 - g) • (1 : Matrix ι ι ℝ) := by
      rw [← spec_one hv, ← spec_smul]; simp
    rw [this]; simp
  rw [hg g, e2]
  have q : ∀ z : ι → ℝ, quad (R * spec v z * R) x = ∑ i, z i * ((vᵀ *ᵥ (R *ᵥ x)) i * (vᵀ *ᵥ (R *ᵥ x)) i) := by
    intro z
    have := quad_congr R (spec v z) x
    rw [hR.1.transpose] at this
    rw [this, quad_spec]
  rw [q, q]
  refine Finset.sum_le_sum fun i _ => mul_le_mul_of_nonneg_right ?_ (mul_self_nonneg _)
  have := Real.geom_mean_le_arith_mean2_weighted (by linarith : 0 ≤ 1 - g) h0 zero_le_one (hw i).le (by ring)
  simpa using this

/-- C37: if both endpoints have all eigenvalues at least `m`, so has the step: the geodesic never gets closer to
singularity than its endpoints. -/
theorem C37_eig_lower (A B : Matrix ι ι ℝ) (g : ℝ) (h0 : 0 ≤ g) (h1 : g ≤ 1) (m : ℝ) (hm : 0 ≤ m) (hA : MinEigGE (makePosDef L A) m)
    (hB : MinEigGE (makePosDef L B) m) : MinEigGE (geodesicStep L A B g) m := by
  rcases eq_or_lt_of_le h0 with h0 | h0
  · subst h0; rw [(C37_endpoints_floored L A B).1]; exact hA
  rcases eq_or_lt_of_le h1 with h1 | h1
  · subst h1; rw [(C37_endpoints_floored L A B).2]; exact hB
  obtain ⟨R, Ri, hR, hRi, hRR, hRRi, hRiR, v, w, hv, hw, hM, hg⟩ := geodesic_facts L A B
  intro x
  have hg1 : 0 < 1 - g := by linarith
  have hvv := orth_comm hv
  set t : ι → ℝ := vᵀ *ᵥ (R *ᵥ x) with ht
  have hD : ∀ i, 0 < (1 - g) * w i + g := fun i => by have := mul_pos hg1 (hw i); linarith
  set a : ι → ℝ := fun i => (1 - g) * w i * t i / ((1 - g) * w i + g) with ha
  set b : ι → ℝ := fun i => g * t i / ((1 - g) * w i + g) with hb
  have hab : a + b = t := by
    funext i; simp only [Pi.add_apply, ha, hb]; rw [← add_div, ← add_mul, mul_div_assoc, mul_comm, div_mul_cancel₀ _ (hD i).ne']
  have q : quad (geodesicStep L A B g) x = ∑ i, w i ^ g * (t i * t i) := by
    rw [hg g]
    have := quad_congr R (spec v fun i => w i ^ g) x
    rw [hR.1.transpose] at this
    rw [this, quad_spec]
  -- pointwise
  have hp : ∀ i, (1 / (1 - g)) * (a i * a i) + (1 / g) * (w i * (b i * b i)) ≤ w i ^ g * (t i * t i) := by
    intro i
    have e : (1 / (1 - g)) * (a i * a i) + (1 / g) * (w i * (b i * b i)) = w i / ((1 - g) * w i + g) * (t i * t i) := by
      simp only [ha, hb]
      have := (hD i).ne'
      field_simp
    rw [e]
    refine mul_le_mul_of_nonneg_right ?_ (mul_self_nonneg _)
    rw [div_le_iff₀ (hD i)]
    -- w ≤ w^g ((1-g) w + g): weighted AM-GM gives w^(1-g) ≤ (1-g) w + g
    have hag := Real.geom_mean_le_arith_mean2_weighted hg1.le h0.le (hw i).le zero_le_one (by ring)
    simp only [Real.one_rpow, mul_one] at hag
    have hpos : 0 ≤ w i ^ g := (Real.rpow_pos_of_pos (hw i) _).le
    calc w i = w i ^ g * w i ^ (1 - g) := by rw [← Real.rpow_add (hw i)]; simp
      _ ≤ _ := mul_le_mul_of_nonneg_left hag hpos
  set p : ι → ℝ := Ri *ᵥ (v *ᵥ a) with hpd
  set s : ι → ℝ := Ri *ᵥ (v *ᵥ b) with hsd
  have hx : p + s = x := by
    have h1 : v *ᵥ t = R *ᵥ x := by
      have h := mulVec_mulVec (R *ᵥ x) v vᵀ
      rw [hvv, one_mulVec] at h
      exact h
    rw [hpd, hsd, ← mulVec_add, ← mulVec_add, hab, h1, mulVec_mulVec, hRiR, one_mulVec]
  have hqa : quad (makePosDef L A) p = ∑ i, a i * a i := by
    have h1 : quad (makePosDef L A) p = normSq (R *ᵥ p) := by
      rw [← hRR]
      have := quad_congr R 1 p
      rw [hR.1.transpose] at this
      rw [show R * R = R * 1 * R by simp, this, quad_one]
    have h2 : R *ᵥ p = v *ᵥ a := by rw [hpd, mulVec_mulVec, hRRi, one_mulVec]
    rw [h1, h2]
    have h3 := normSq_orth hv (v *ᵥ a)
    rw [mulVec_mulVec, hv, one_mulVec] at h3
    rw [← h3]; rfl
  have hqb : quad (makePosDef L B) s = ∑ i, w i * (b i * b i) := by
    have h1 := quad_congr Ri (makePosDef L B) (v *ᵥ b)
    rw [hRi.1.transpose, hM, quad_spec] at h1
    rw [hsd, ← h1]
    refine Finset.sum_congr rfl fun i _ => ?_
    rw [mulVec_mulVec, hv, one_mulVec]
  have hmain : (1 / (1 - g)) * quad (makePosDef L A) p + (1 / g) * quad (makePosDef L B) s ≤ quad (geodesicStep L A B g) x := by
    rw [q, hqa, hqb, Finset.mul_sum, Finset.mul_sum, ← Finset.sum_add_distrib]
    exact Finset.sum_le_sum fun i _ => hp i
  have h2 := hA p
  have h3 := hB s
  have h4 : normSq x ≤ (1 / (1 - g)) * normSq p + (1 / g) * normSq s := by
    rw [← hx]
    unfold normSq
    rw [Finset.mul_sum, Finset.mul_sum, ← Finset.sum_add_distrib]
    refine Finset.sum_le_sum fun i _ => ?_
    simp only [Pi.add_apply]
    have e : (1 / (1 - g)) * (p i * p i) + (1 / g) * (s i * s i) - (p i + s i) * (p i + s i)
        = (g * p i - (1 - g) * s i) ^ 2 / (g * (1 - g)) := by
      field_simp; ring
    have : 0 ≤ (g * p i - (1 - g) * s i) ^ 2 / (g * (1 - g)) := by positivity
    linarith
  have h5 := mul_le_mul_of_nonneg_left h4 hm
  have h6 := mul_le_mul_of_nonneg_left h2 (one_div_pos.2 hg1).le
  have h7 := mul_le_mul_of_nonneg_left h3 (one_div_pos.2 h0).le
  nlinarith

/-- C37: the largest eigenvalue too stays below the larger of the endpoints'. -/
theorem C37_eig_upper (A B : Matrix ι ι ℝ) (g : ℝ) (h0 : 0 ≤ g) (h1 : g ≤ 1) (m : ℝ) (hA : MaxEigLE (makePosDef L A) m)
    (hB : MaxEigLE (makePosDef L B) m) : MaxEigLE (geodesicStep L A B g) m := by
  intro x
  have h := C37_below_line L A B g h0 h1 x
  rw [quad_add, quad_smul, quad_smul] at h
  have := mul_le_mul_of_nonneg_left (hA x) (by linarith : 0 ≤ 1 - g)
  have := mul_le_mul_of_nonneg_left (hB x) h0
  nlinarith

-- hypotheses met: endpoints diag(1,4) and diag(4,1)
example (L : Lapack) : MinEigGE (geodesicStep L (diagonal ![1, 4]) (diagonal ![4, 1]) (1/2)) 1 := by
  have h : ∀ d : Fin 2 → ℝ, (∀ i, 1 ≤ d i) → MinEigGE (makePosDef L (diagonal d)) 1 := by
    intro d hd
    have hm : MinEigGE (diagonal d) 1 := fun x => by
      rw [quad_diagonal, normSq, one_mul]
      exact Finset.sum_le_sum fun i _ => by nlinarith [hd i, mul_self_nonneg (x i)]
    have h8 : MinEigGE (diagonal d) (1 / 10 ^ 8) := fun x => by
      refine le_trans ?_ (hm x)
      exact mul_le_mul_of_nonneg_right (by norm_num) (normSq_nonneg x)
    rw [makePosDef_id L h8, toSymmetric_of_symm (symm_diagonal _)]; exact hm
  refine C37_eig_lower L _ _ _ (by norm_num) (by norm_num) 1 (by norm_num) (h _ ?_) (h _ ?_) <;>
    (intro i; fin_cases i <;> norm_num)

end Precise
