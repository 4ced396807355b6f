import Verif.Spec.Matrix
import Verif.Model.State
import Mathlib.Algebra.BigOperators.Field
import Mathlib.Algebra.Order.BigOperators.Ring.Finset
import Mathlib.Tactic.Linarith
import Mathlib.Tactic.LinearCombination
import Mathlib.Tactic.Ring
import Mathlib.Tactic.FieldSimp
import Mathlib.Tactic.Positivity
import Mathlib.LinearAlgebra.Matrix.Notation

/-! Quadratic forms and positivity over an ordered field. -/

set_option linter.all false

open Matrix

namespace Precise

open Spec

variable {ι κ K : Type} [Fintype ι] [Fintype κ]

section Semi
variable [Field K]

theorem quad_expand (a : Matrix ι ι K) (x : ι → K) : quad a x = ∑ i, ∑ j, x i * a i j * x j := by
  simp only [quad, dotProduct, mulVec, Finset.mul_sum, mul_assoc]

theorem quad_add (a b : Matrix ι ι K) (x : ι → K) : quad (a + b) x = quad a x + quad b x := by
  simp [quad, add_mulVec, dotProduct_add]

theorem quad_sub (a b : Matrix ι ι K) (x : ι → K) : quad (a - b) x = quad a x - quad b x := by
  simp [quad, sub_mulVec, dotProduct_sub]

theorem quad_smul (c : K) (a : Matrix ι ι K) (x : ι → K) : quad (c • a) x = c * quad a x := by
  simp [quad, smul_mulVec, dotProduct_smul]

theorem quad_neg (a : Matrix ι ι K) (x : ι → K) : quad (-a) x = -quad a x := by
  simp [quad, neg_mulVec, dotProduct_neg]

@[simp] theorem quad_zero (x : ι → K) : quad (0 : Matrix ι ι K) x = 0 := by simp [quad]

@[simp] theorem quad_zero_right (a : Matrix ι ι K) : quad a 0 = 0 := by simp [quad]

theorem quad_sum {β : Type} (s : Finset β) (a : β → Matrix ι ι K) (x : ι → K) :
    quad (∑ b ∈ s, a b) x = ∑ b ∈ s, quad (a b) x := by
  classical
  induction s using Finset.induction_on with
  | empty => simp
  | insert b s hb ih => rw [Finset.sum_insert hb, Finset.sum_insert hb, quad_add, ih]

theorem quad_outer (u x : ι → K) : quad (outer u u) x = (u ⬝ᵥ x) * (u ⬝ᵥ x) := by
  rw [quad_expand]
  simp only [outer, of_apply, dotProduct, Finset.sum_mul_sum]
  refine Finset.sum_congr rfl fun i _ => Finset.sum_congr rfl fun j _ => by ring

theorem quad_one [DecidableEq ι] (x : ι → K) : quad (1 : Matrix ι ι K) x = normSq x := by
  simp [quad, normSq, dotProduct]

theorem quad_diagonal [DecidableEq ι] (d : ι → K) (x : ι → K) : quad (diagonal d) x = ∑ i, d i * (x i * x i) := by
  simp only [quad, dotProduct, mulVec_diagonal]
  exact Finset.sum_congr rfl fun i _ => by ring

theorem quad_transpose (a : Matrix ι ι K) (x : ι → K) : quad aᵀ x = quad a x := by
  rw [quad_expand, quad_expand, Finset.sum_comm]
  refine Finset.sum_congr rfl fun i _ => Finset.sum_congr rfl fun j _ => by
    rw [transpose_apply]; ring

theorem quad_congr (A : Matrix κ ι K) (c : Matrix ι ι K) (x : κ → K) :
    quad (A * c * Aᵀ) x = quad c (Aᵀ *ᵥ x) := by
  simp only [quad, ← mulVec_mulVec]
  rw [dotProduct_mulVec, mulVec_transpose]

theorem quad_single [DecidableEq ι] (a : Matrix ι ι K) (i : ι) : quad a (Pi.single i 1) = a i i := by
  simp [quad, single_dotProduct]

theorem toSymmetric_eq [CharZero K] (a : Matrix ι ι K) : toSymmetric a = (1/2 : K) • (a + aᵀ) := by
  ext i j; simp [toSymmetric]; ring

theorem quad_toSymmetric [CharZero K] (a : Matrix ι ι K) (x : ι → K) : quad (toSymmetric a) x = quad a x := by
  rw [toSymmetric_eq, quad_smul, quad_add, quad_transpose]
  ring

theorem symm_toSymmetric (a : Matrix ι ι K) : Symm (toSymmetric a) := by
  intro i j; simp [toSymmetric, add_comm]

theorem toSymmetric_of_symm [CharZero K] {a : Matrix ι ι K} (h : Symm a) : toSymmetric a = a := by
  ext i j
  simp only [toSymmetric, Matrix.of_apply, h j i]
  exact add_self_div_two _

theorem symm_iff (a : Matrix ι ι K) : Symm a ↔ aᵀ = a := by
  constructor
  · intro h; ext i j; exact h j i
  · intro h i j
    have := congrFun (congrFun h j) i
    exact this

theorem Spec.Symm.transpose {a : Matrix ι ι K} (h : Symm a) : aᵀ = a := (symm_iff a).1 h
theorem symm_of_transpose {a : Matrix ι ι K} (h : aᵀ = a) : Symm a := (symm_iff a).2 h

theorem Spec.Symm.add {a b : Matrix ι ι K} (ha : Symm a) (hb : Symm b) : Symm (a + b) := fun i j => by
  simp [ha i j, hb i j]
theorem Spec.Symm.sub {a b : Matrix ι ι K} (ha : Symm a) (hb : Symm b) : Symm (a - b) := fun i j => by
  simp [ha i j, hb i j]
theorem Spec.Symm.smul {a : Matrix ι ι K} (c : K) (ha : Symm a) : Symm (c • a) := fun i j => by simp [ha i j]
theorem symm_zero : Symm (0 : Matrix ι ι K) := fun i j => rfl
theorem symm_one [DecidableEq ι] : Symm (1 : Matrix ι ι K) := fun i j => by
  simp only [one_apply, eq_comm]
theorem symm_outer (u : ι → K) : Symm (outer u u) := fun i j => by simp [outer, mul_comm]
theorem symm_diagonal [DecidableEq ι] (d : ι → K) : Symm (diagonal d) :=
  symm_of_transpose (diagonal_transpose d)
theorem Spec.Symm.congr {c : Matrix ι ι K} (hc : Symm c) (A : Matrix κ ι K) : Symm (A * c * Aᵀ) := by
  refine symm_of_transpose ?_
  simp [hc.transpose, Matrix.mul_assoc]

/-- polarization: bilinear form of a symmetric matrix -/
theorem quad_add_vec {a : Matrix ι ι K} (h : Symm a) (x y : ι → K) (t : K) :
    quad a (x + t • y) = quad a x + 2 * t * (x ⬝ᵥ a *ᵥ y) + t * t * quad a y := by
  have hxy : y ⬝ᵥ a *ᵥ x = x ⬝ᵥ a *ᵥ y := by
    rw [dotProduct_mulVec, ← mulVec_transpose, h.transpose, dotProduct_comm]
  simp only [quad, mulVec_add, mulVec_smul, add_dotProduct, dotProduct_add, smul_dotProduct, dotProduct_smul,
    smul_eq_mul, hxy]
  ring

/-- A symmetric matrix is determined by its quadratic form. -/
theorem eq_of_quad_eq [CharZero K] {a b : Matrix ι ι K} (ha : Symm a) (hb : Symm b)
    (h : ∀ x, quad a x = quad b x) : a = b := by
  classical
  ext i j
  have e : ∀ c : Matrix ι ι K, (Pi.single i 1 : ι → K) ⬝ᵥ c *ᵥ (Pi.single j 1) = c i j := by
    intro c; simp [single_dotProduct]
  have h1 := quad_add_vec ha (Pi.single i 1) (Pi.single j 1) 1
  have h2 := quad_add_vec hb (Pi.single i 1) (Pi.single j 1) 1
  rw [e] at h1 h2
  have h3 := h (Pi.single i 1 + (1:K) • Pi.single j 1)
  have h4 := h (Pi.single i 1)
  have h5 := h (Pi.single j 1)
  have : 2 * a i j = 2 * b i j := by linear_combination h2 - h1 + h3 - h4 - h5
  exact mul_left_cancel₀ two_ne_zero this

theorem trace_outer (u : ι → K) : (outer u u).trace = normSq u := by
  simp [trace, outer, normSq]

end Semi

section Ordered
variable [Field K] [LinearOrder K] [IsStrictOrderedRing K]

theorem normSq_nonneg (x : ι → K) : 0 ≤ normSq x := Finset.sum_nonneg fun i _ => mul_self_nonneg _

theorem normSq_pos {x : ι → K} (h : x ≠ 0) : 0 < normSq x := by
  obtain ⟨i, hi⟩ := Function.ne_iff.1 h
  exact Finset.sum_pos' (fun i _ => mul_self_nonneg _) ⟨i, Finset.mem_univ _, mul_self_pos.2 hi⟩

theorem normSq_eq_zero {x : ι → K} : normSq x = 0 ↔ x = 0 := by
  constructor
  · intro h; by_contra hx; exact absurd h (ne_of_gt (normSq_pos hx))
  · rintro rfl; simp [normSq]

theorem psd_zero : PSD (0 : Matrix ι ι K) := ⟨symm_zero, fun x => by simp⟩
theorem psd_one [DecidableEq ι] : PSD (1 : Matrix ι ι K) := ⟨symm_one, fun x => by
  rw [quad_one]; exact normSq_nonneg x⟩
theorem pd_one [DecidableEq ι] : PD (1 : Matrix ι ι K) := ⟨symm_one, fun x hx => by
  rw [quad_one]; exact normSq_pos hx⟩
theorem psd_outer (u : ι → K) : PSD (outer u u) := ⟨symm_outer u, fun x => by
  rw [quad_outer]; exact mul_self_nonneg _⟩
theorem psd_diagonal [DecidableEq ι] {d : ι → K} (h : ∀ i, 0 ≤ d i) : PSD (diagonal d) :=
  ⟨symm_diagonal d, fun x => by
    rw [quad_diagonal]; exact Finset.sum_nonneg fun i _ => mul_nonneg (h i) (mul_self_nonneg _)⟩
theorem pd_diagonal [DecidableEq ι] {d : ι → K} (h : ∀ i, 0 < d i) : PD (diagonal d) :=
  ⟨symm_diagonal d, fun x hx => by
    rw [quad_diagonal]
    obtain ⟨i, hi⟩ := Function.ne_iff.1 hx
    exact Finset.sum_pos' (fun i _ => mul_nonneg (h i).le (mul_self_nonneg _))
      ⟨i, Finset.mem_univ _, mul_pos (h i) (mul_self_pos.2 hi)⟩⟩

theorem Spec.PSD.add {a b : Matrix ι ι K} (ha : PSD a) (hb : PSD b) : PSD (a + b) :=
  ⟨ha.1.add hb.1, fun x => by rw [quad_add]; exact add_nonneg (ha.2 x) (hb.2 x)⟩
theorem Spec.PSD.smul {a : Matrix ι ι K} (ha : PSD a) {c : K} (hc : 0 ≤ c) : PSD (c • a) :=
  ⟨ha.1.smul c, fun x => by rw [quad_smul]; exact mul_nonneg hc (ha.2 x)⟩
theorem Spec.PD.smul {a : Matrix ι ι K} (ha : PD a) {c : K} (hc : 0 < c) : PD (c • a) :=
  ⟨ha.1.smul c, fun x hx => by rw [quad_smul]; exact mul_pos hc (ha.2 x hx)⟩
theorem Spec.PD.psd {a : Matrix ι ι K} (ha : PD a) : PSD a :=
  ⟨ha.1, fun x => by
    by_cases hx : x = 0
    · subst hx; simp
    · exact (ha.2 x hx).le⟩
theorem Spec.PD.add_psd {a b : Matrix ι ι K} (ha : PD a) (hb : PSD b) : PD (a + b) :=
  ⟨ha.1.add hb.1, fun x hx => by rw [quad_add]; exact add_pos_of_pos_of_nonneg (ha.2 x hx) (hb.2 x)⟩
theorem Spec.PSD.add_pd {a b : Matrix ι ι K} (ha : PSD a) (hb : PD b) : PD (a + b) := by
  rw [add_comm]; exact hb.add_psd ha
theorem Spec.PSD.sum {β : Type} {s : Finset β} {a : β → Matrix ι ι K} (h : ∀ b ∈ s, PSD (a b)) : PSD (∑ b ∈ s, a b) := by
  classical
  induction s using Finset.induction_on with
  | empty => simpa using psd_zero
  | insert b s hb ih =>
    rw [Finset.sum_insert hb]
    exact (h b (Finset.mem_insert_self _ _)).add (ih fun c hc => h c (Finset.mem_insert_of_mem hc))
theorem Spec.PSD.congr {c : Matrix ι ι K} (hc : PSD c) (A : Matrix κ ι K) : PSD (A * c * Aᵀ) :=
  ⟨hc.1.congr A, fun x => by rw [quad_congr]; exact hc.2 _⟩
theorem Spec.PSD.toSymmetric {a : Matrix ι ι K} (h : ∀ x, 0 ≤ quad a x) : PSD (toSymmetric a) :=
  ⟨symm_toSymmetric a, fun x => by rw [quad_toSymmetric]; exact h x⟩
theorem Spec.PSD.diag_nonneg {a : Matrix ι ι K} (h : PSD a) (i : ι) : 0 ≤ a i i := by
  classical
  rw [← quad_single a i]; exact h.2 _
theorem Spec.PD.diag_pos {a : Matrix ι ι K} (h : PD a) (i : ι) : 0 < a i i := by
  classical
  rw [← quad_single a i]; exact h.2 _ (by simp)
theorem Spec.PSD.trace_nonneg {a : Matrix ι ι K} (h : PSD a) : 0 ≤ a.trace :=
  Finset.sum_nonneg fun i _ => h.diag_nonneg i

/-- Cauchy–Schwarz for a PSD form. -/
theorem Spec.PSD.cauchy_schwarz {a : Matrix ι ι K} (h : PSD a) (x y : ι → K) :
    (x ⬝ᵥ a *ᵥ y) * (x ⬝ᵥ a *ᵥ y) ≤ quad a x * quad a y := by
  set B := x ⬝ᵥ a *ᵥ y
  set X := quad a x
  set Y := quad a y
  have hY : 0 ≤ Y := h.2 y
  have hX : 0 ≤ X := h.2 x
  have key : ∀ t : K, 0 ≤ X + 2 * t * B + t * t * Y := fun t => by
    have := h.2 (x + t • y); rwa [quad_add_vec h.1] at this
  rcases hY.eq_or_lt with hY0 | hYpos
  · -- Y = 0 forces B = 0
    have hB : B = 0 := by
      by_contra hB
      have := key (-(X + 1) / (2 * B))
      rw [← hY0] at this
      have e : 2 * (-(X + 1) / (2 * B)) * B = -(X + 1) := by field_simp
      rw [e] at this
      linarith
    rw [hB, ← hY0]; simp
  · have := key (-B / Y)
    have e : X + 2 * (-B / Y) * B + -B / Y * (-B / Y) * Y = X - B * B / Y := by field_simp; ring
    rw [e] at this
    have h2 : B * B / Y ≤ X := by linarith
    rwa [div_le_iff₀ hYpos] at h2

theorem Spec.PSD.entry_sq_le {a : Matrix ι ι K} (h : PSD a) (i j : ι) : a i j * a i j ≤ a i i * a j j := by
  classical
  have := h.cauchy_schwarz (Pi.single i 1) (Pi.single j 1)
  simpa [quad_single, single_dotProduct] using this

theorem Spec.PSD.entry_zero {a : Matrix ι ι K} (h : PSD a) {i : ι} (hi : a i i = 0) (j : ι) : a i j = 0 := by
  have := h.entry_sq_le i j
  rw [hi, zero_mul] at this
  exact mul_self_eq_zero.1 (le_antisymm this (mul_self_nonneg _))

/-- The kernel of a PSD form is a linear subspace: `xᵀax = 0` iff `ax = 0`. -/
theorem Spec.PSD.quad_eq_zero_iff {a : Matrix ι ι K} (h : PSD a) (x : ι → K) : quad a x = 0 ↔ a *ᵥ x = 0 := by
  classical
  constructor
  · intro hx
    ext i
    have := h.cauchy_schwarz (Pi.single i 1) x
    rw [hx, mul_zero] at this
    have e : (Pi.single i 1 : ι → K) ⬝ᵥ a *ᵥ x = (a *ᵥ x) i := by simp [single_dotProduct]
    rw [e] at this
    exact mul_self_eq_zero.1 (le_antisymm this (mul_self_nonneg _))
  · intro hx; simp [quad, hx]

theorem Spec.MinEigGE.pd {a : Matrix ι ι K} (hs : Symm a) {c : K} (hc : 0 < c) (h : MinEigGE a c) : PD a :=
  ⟨hs, fun x hx => lt_of_lt_of_le (mul_pos hc (normSq_pos hx)) (h x)⟩

theorem Spec.PD.congr_inj {c : Matrix ι ι K} (hc : PD c) (A : Matrix κ ι K) (hA : ∀ x, Aᵀ *ᵥ x = 0 → x = 0) :
    PD (A * c * Aᵀ) :=
  ⟨hc.1.congr A, fun x hx => by
    rw [quad_congr]; exact hc.2 _ fun h => hx (hA x h)⟩

end Ordered

end Precise
