import Verif.Lemmas.Pencil
import Verif.Props.GeodesicBetween
import Mathlib.Analysis.SpecialFunctions.Pow.Continuity
import Mathlib.Topology.Algebra.Order.Floor

/-!
# Powers of positive-definite matrices are monotone (Loewner-Heinz), and so is the geodesic
-/

set_option linter.all false

open Matrix Filter Topology

namespace Precise

open Spec

variable {ι : Type} [Fintype ι] [DecidableEq ι]

/-! ## Loewner-Heinz -/

section LH
variable {v v' : Matrix ι ι ℝ} {w w' : ι → ℝ}

theorem spec_pow_mul (hv : vᵀ * v = 1) (hw : ∀ i, 0 < w i) (s t : ℝ) :
    spec v (fun i => w i ^ s) * spec v (fun i => w i ^ t) = spec v fun i => w i ^ (s + t) := by
  rw [spec_mul hv]; congr 1; ext i; rw [Real.rpow_add (hw i)]

/-- Pedersen's argument: the exponents for which the power is monotone on this pair are closed under midpoints. -/
theorem loewner_midpoint (hv : vᵀ * v = 1) (hw : ∀ i, 0 < w i) (hv' : v'ᵀ * v' = 1) (hw' : ∀ i, 0 < w' i) {s t : ℝ}
    (hs : Loewner (spec v fun i => w i ^ s) (spec v' fun i => w' i ^ s)) (ht : Loewner (spec v fun i => w i ^ t) (spec v' fun i => w' i ^ t)) :
    Loewner (spec v fun i => w i ^ ((s + t) / 2)) (spec v' fun i => w' i ^ ((s + t) / 2)) := by
  have pB : ∀ u : ℝ, PD (spec v' fun i => w' i ^ u) := fun u => pd_spec hv' fun i => Real.rpow_pos_of_pos (hw' i) u
  obtain ⟨Q, l, hQ, eB, eA⟩ := Theory.sim_diag (pB ((s + t) / 2)) (symm_spec v fun i => w i ^ ((s + t) / 2))
  have hQt : IsUnit Qᵀ.det := by rwa [det_transpose]
  have hl : ∀ i, l i ≤ 1 := by
    intro i
    set x := Qᵀ⁻¹ *ᵥ Pi.single i (1:ℝ) with hx
    have e : Qᵀ *ᵥ x = Pi.single i 1 := by rw [hx, mulVec_mulVec, mul_nonsing_inv _ hQt, one_mulVec]
    have hne : x ≠ 0 := by
      intro h0; rw [h0, mulVec_zero] at e
      have := congrFun e i; simp at this
    have hpencil : (spec v fun i => w i ^ ((s + t) / 2)) *ᵥ x = l i • ((spec v' fun i => w' i ^ ((s + t) / 2)) *ᵥ x) := by
      rw [eA, eB, ← mulVec_mulVec, ← mulVec_mulVec, e, ← mulVec_mulVec, e]
      have : diagonal l *ᵥ Pi.single i (1:ℝ) = l i • Pi.single i (1:ℝ) := by
        ext j
        rw [mulVec_diagonal, Pi.smul_apply, smul_eq_mul]
        by_cases h : j = i
        · rw [h]
        · simp [Pi.single_eq_of_ne h]
      rw [this, mulVec_smul]
    clear_value x
    set z := (spec v' fun i => w' i ^ ((t - s) / 2)) *ᵥ x with hz
    set q := quad (spec v' fun i => w' i ^ t) x with hq
    have hq0 : 0 < q := (pB t).2 x hne
    have symA : ∀ u : ℝ, (spec v fun i => w i ^ u)ᵀ = spec v fun i => w i ^ u := fun u => (symm_spec v _).transpose
    have symB : ∀ u : ℝ, (spec v' fun i => w' i ^ u)ᵀ = spec v' fun i => w' i ^ u := fun u => (symm_spec v' _).transpose
    have moveA : ∀ (u : ℝ) (a b : ι → ℝ), ((spec v fun i => w i ^ u) *ᵥ a) ⬝ᵥ b = a ⬝ᵥ (spec v fun i => w i ^ u) *ᵥ b := by
      intro u a b; rw [dotProduct_mulVec, ← mulVec_transpose, symA]
    have moveB : ∀ (u : ℝ) (a b : ι → ℝ), ((spec v' fun i => w' i ^ u) *ᵥ a) ⬝ᵥ b = a ⬝ᵥ (spec v' fun i => w' i ^ u) *ᵥ b := by
      intro u a b; rw [dotProduct_mulVec, ← mulVec_transpose, symB]
    have e1 : z ⬝ᵥ (spec v' fun i => w' i ^ ((s + t) / 2)) *ᵥ x = q := by
      rw [hz, moveB, mulVec_mulVec, spec_pow_mul hv' hw', hq, quad]
      congr 3; ext i; congr 1; ring
    have e2 : quad (spec v' fun i => w' i ^ s) z = q := by
      rw [quad, hz, moveB, mulVec_mulVec, mulVec_mulVec, spec_pow_mul hv' hw', spec_pow_mul hv' hw', hq, quad]
      congr 3; ext i; congr 1; ring
    have e3 : z ⬝ᵥ (spec v fun i => w i ^ ((s + t) / 2)) *ᵥ x
        = ((spec v fun i => w i ^ (s / 2)) *ᵥ z) ⬝ᵥ ((spec v fun i => w i ^ (t / 2)) *ᵥ x) := by
      rw [moveA, mulVec_mulVec _ (spec v fun i => w i ^ (s / 2)), spec_pow_mul hv hw]
      congr 3; ext i; congr 1; ring
    have nrm : ∀ (u : ℝ) (a : ι → ℝ), ((spec v fun i => w i ^ (u / 2)) *ᵥ a) ⬝ᵥ ((spec v fun i => w i ^ (u / 2)) *ᵥ a) = quad (spec v fun i => w i ^ u) a := by
      intro u a
      rw [moveA, mulVec_mulVec, spec_pow_mul hv hw, quad]
      congr 3; ext i; congr 1; ring
    have amgm : ∀ a b : ι → ℝ, a ⬝ᵥ b ≤ (a ⬝ᵥ a + b ⬝ᵥ b) / 2 := by
      intro a b
      have : 0 ≤ (a - b) ⬝ᵥ (a - b) := Finset.sum_nonneg fun i _ => mul_self_nonneg _
      simp only [sub_dotProduct, dotProduct_sub] at this
      rw [dotProduct_comm b a] at this
      linarith
    have h1 : l i * q ≤ q := by
      have h2 := amgm ((spec v fun i => w i ^ (s / 2)) *ᵥ z) ((spec v fun i => w i ^ (t / 2)) *ᵥ x)
      rw [nrm, nrm, ← e3, hpencil, dotProduct_smul, e1, smul_eq_mul] at h2
      have h3 := hs z
      have h4 := ht x
      rw [e2] at h3
      rw [← hq] at h4
      linarith
    nlinarith
  intro x
  rw [eA, eB]
  have : Q * Qᵀ = Q * diagonal (fun _ => (1:ℝ)) * Qᵀ := by rw [diagonal_one, Matrix.mul_one]
  rw [this, quad_congr, quad_congr, quad_diagonal, quad_diagonal]
  exact Finset.sum_le_sum fun i _ => mul_le_mul_of_nonneg_right (hl i) (mul_self_nonneg _)

/-- Loewner-Heinz: `A ⪯ B` gives `A^t ⪯ B^t` for `0 ≤ t ≤ 1`. -/
theorem loewner_heinz (hv : vᵀ * v = 1) (hw : ∀ i, 0 < w i) (hv' : v'ᵀ * v' = 1) (hw' : ∀ i, 0 < w' i)
    (h : Loewner (spec v w) (spec v' w')) {t : ℝ} (t0 : 0 ≤ t) (t1 : t ≤ 1) :
    Loewner (spec v fun i => w i ^ t) (spec v' fun i => w' i ^ t) := by
  have dy : ∀ (n k : ℕ), k ≤ 2 ^ n → Loewner (spec v fun i => w i ^ ((k:ℝ) / 2 ^ n)) (spec v' fun i => w' i ^ ((k:ℝ) / 2 ^ n)) := by
    intro n
    induction n with
    | zero =>
      intro k hk
      have : k = 0 ∨ k = 1 := by simp at hk; omega
      rcases this with rfl | rfl
      · simp only [Nat.cast_zero, zero_div, Real.rpow_zero, spec_one hv, spec_one hv']; exact fun x => le_rfl
      · simp only [pow_zero, Nat.cast_one, div_one, Real.rpow_one]; exact h
    | succ n ih =>
      intro k hk
      rcases Nat.even_or_odd' k with ⟨j, rfl | rfl⟩
      · have e : ((2 * j : ℕ) : ℝ) / 2 ^ (n + 1) = (j:ℝ) / 2 ^ n := by push_cast; rw [pow_succ]; field_simp
        rw [e]; exact ih j (by rw [pow_succ] at hk; omega)
      · have e : ((2 * j + 1 : ℕ) : ℝ) / 2 ^ (n + 1) = ((j:ℝ) / 2 ^ n + ((j + 1 : ℕ) : ℝ) / 2 ^ n) / 2 := by
          push_cast; rw [pow_succ]; field_simp; ring
        rw [e]
        exact loewner_midpoint hv hw hv' hw' (ih j (by rw [pow_succ] at hk; omega)) (ih (j + 1) (by rw [pow_succ] at hk; omega))
  intro x
  have cont : ∀ {v : Matrix ι ι ℝ} {w : ι → ℝ}, (∀ i, 0 < w i) → Continuous fun u : ℝ => quad (spec v fun i => w i ^ u) x := by
    intro v w hw
    simp only [quad_spec]
    exact continuous_finset_sum _ fun i _ => (Real.continuous_const_rpow (hw i).ne').mul continuous_const
  have hlim : Tendsto (fun n : ℕ => ((⌊t * (2:ℝ) ^ n⌋₊ : ℕ) : ℝ) / (2:ℝ) ^ n) atTop (𝓝 t) :=
    (tendsto_nat_floor_mul_div_atTop t0).comp (tendsto_pow_atTop_atTop_of_one_lt one_lt_two)
  refine le_of_tendsto_of_tendsto' (((cont hw).tendsto t).comp hlim) (((cont hw').tendsto t).comp hlim) fun n => dy n _ ?_ x
  have : ⌊t * (2:ℝ) ^ n⌋₊ ≤ ⌊((2 ^ n : ℕ) : ℝ)⌋₊ := Nat.floor_le_floor (by push_cast; exact mul_le_of_le_one_left (by positivity) t1)
  rwa [Nat.floor_natCast] at this

end LH

/-! ## The geodesic -/

/-- `G` is the point at `g` of the geodesic from `S` to `E`, whatever way they are diagonalized together. -/
def IsGeo (S E : Matrix ι ι ℝ) (g : ℝ) (G : Matrix ι ι ℝ) : Prop :=
  ∃ (Q : Matrix ι ι ℝ) (l : ι → ℝ), IsUnit Q.det ∧ (∀ i, 0 < l i) ∧ S = Q * Qᵀ ∧ E = Q * diagonal l * Qᵀ ∧ G = Q * diagonal (fun i => l i ^ g) * Qᵀ

namespace IsGeo
variable {S E S' E' G G' : Matrix ι ι ℝ} {g : ℝ}

theorem exists_of_pd (hS : PD S) (hE : PD E) (g : ℝ) : ∃ G, IsGeo S E g G := by
  obtain ⟨Q, l, hQ, e1, e2⟩ := Theory.sim_diag hS hE.1
  exact ⟨_, Q, l, hQ, (Theory.ray_pd hQ l).1 (by rw [← e2]; exact hE), e1, e2, rfl⟩

/-- two joint diagonalizations with the same start differ by a rotation -/
theorem rotation {Q Q' : Matrix ι ι ℝ} (hQ : IsUnit Q.det) (h : Q * Qᵀ = Q' * Q'ᵀ) : ∃ U : Matrix ι ι ℝ, Uᵀ * U = 1 ∧ Q' = Q * U := by
  have hQt : IsUnit Qᵀ.det := by rwa [det_transpose]
  refine ⟨Q⁻¹ * Q', orth_comm (v := (Q⁻¹ * Q')ᵀ) ?_ |> fun h => by simpa using h, ?_⟩
  · rw [transpose_transpose, transpose_mul, transpose_nonsing_inv]
    have : Q⁻¹ * Q' * (Q'ᵀ * Qᵀ⁻¹) = Q⁻¹ * (Q' * Q'ᵀ) * Qᵀ⁻¹ := by simp only [Matrix.mul_assoc]
    rw [this, ← h, ← Matrix.mul_assoc, nonsing_inv_mul _ hQ, Matrix.one_mul, mul_nonsing_inv _ hQt]
  · rw [← Matrix.mul_assoc, mul_nonsing_inv _ hQ, Matrix.one_mul]

theorem rotate_eq (Q U : Matrix ι ι ℝ) (l : ι → ℝ) : Q * U * diagonal l * (Q * U)ᵀ = Q * spec U l * Qᵀ := by
  rw [transpose_mul]; unfold spec; simp only [Matrix.mul_assoc]

theorem cancel {Q X Y : Matrix ι ι ℝ} (hQ : IsUnit Q.det) (h : Q * X * Qᵀ = Q * Y * Qᵀ) : X = Y := by
  have hQt : IsUnit Qᵀ.det := by rwa [det_transpose]
  have e : ∀ Z : Matrix ι ι ℝ, Q⁻¹ * (Q * Z * Qᵀ) * Qᵀ⁻¹ = Z := by
    intro Z
    rw [Matrix.mul_assoc Q, ← Matrix.mul_assoc Q⁻¹, nonsing_inv_mul _ hQ, Matrix.one_mul, Matrix.mul_assoc, mul_nonsing_inv _ hQt, Matrix.mul_one]
  rw [← e X, h, e Y]

theorem spec_one_left (l : ι → ℝ) : spec 1 l = diagonal l := by simp [spec]

theorem unique (h : IsGeo S E g G) (h' : IsGeo S E g G') : G = G' := by
  obtain ⟨Q, l, hQ, hl, e1, e2, e3⟩ := h
  obtain ⟨Q', l', hQ', hl', e1', e2', e3'⟩ := h'
  obtain ⟨U, hU, rfl⟩ := rotation hQ (e1.symm.trans e1')
  rw [rotate_eq] at e2' e3'
  have hd : spec 1 l = spec U l' := by rw [spec_one_left]; exact cancel hQ (e2.symm.trans e2')
  have := spec_unique (by simp) hU hd fun t => t ^ g
  rw [spec_one_left] at this
  rw [e3, e3', this]

theorem symm (h : IsGeo S E g G) : IsGeo E S (1 - g) G := by
  obtain ⟨Q, l, hQ, hl, e1, e2, e3⟩ := h
  have key : ∀ f : ι → ℝ, Q * diagonal (fun i => Real.sqrt (l i)) * diagonal f * (Q * diagonal fun i => Real.sqrt (l i))ᵀ = Q * diagonal (fun i => l i * f i) * Qᵀ := by
    intro f
    rw [transpose_mul, diagonal_transpose]
    have : Q * diagonal (fun i => Real.sqrt (l i)) * diagonal f * (diagonal (fun i => Real.sqrt (l i)) * Qᵀ)
        = Q * (diagonal (fun i => Real.sqrt (l i)) * diagonal f * diagonal fun i => Real.sqrt (l i)) * Qᵀ := by simp only [Matrix.mul_assoc]
    rw [this, diagonal_mul_diagonal, diagonal_mul_diagonal]
    congr 3; ext i
    have := Real.mul_self_sqrt (hl i).le
    rw [mul_right_comm, this]
  refine ⟨Q * diagonal (fun i => Real.sqrt (l i)), fun i => 1 / l i, ?_, fun i => one_div_pos.2 (hl i), ?_, ?_, ?_⟩
  · rw [det_mul, det_diagonal]
    exact hQ.mul (isUnit_iff_ne_zero.2 (Finset.prod_ne_zero_iff.2 fun i _ => (Real.sqrt_pos.2 (hl i)).ne'))
  · have := key fun _ => 1
    rw [diagonal_one, Matrix.mul_one] at this
    simp only [mul_one] at this
    rw [this, e2]
  · rw [key, e1]
    have : (fun i => l i * (1 / l i)) = fun _ => (1:ℝ) := by ext i; exact mul_one_div_cancel (hl i).ne'
    rw [this, diagonal_one, Matrix.mul_one]
  · rw [key, e3]
    congr 3; ext i
    show l i ^ g = l i * (1 / l i) ^ (1 - g)
    rw [one_div, Real.inv_rpow (hl i).le, Real.rpow_sub (hl i), Real.rpow_one]
    have := (hl i).ne'
    have := (Real.rpow_pos_of_pos (hl i) g).ne'
    field_simp

theorem smul_right (h : IsGeo S E g G) {c : ℝ} (hc : 0 < c) : IsGeo S (c • E) g (c ^ g • G) := by
  obtain ⟨Q, l, hQ, hl, e1, e2, e3⟩ := h
  refine ⟨Q, fun i => c * l i, hQ, fun i => mul_pos hc (hl i), e1, ?_, ?_⟩
  · rw [e2, ← Matrix.smul_mul, ← Matrix.mul_smul]; congr 2; rw [← diagonal_smul]; rfl
  · rw [e3, ← Matrix.smul_mul, ← Matrix.mul_smul]; congr 2; rw [← diagonal_smul]; congr 1; ext i
    rw [Pi.smul_apply, smul_eq_mul, Real.mul_rpow hc.le (hl i).le]

theorem mono_right (h : IsGeo S E g G) (h' : IsGeo S E' g G') (g0 : 0 ≤ g) (g1 : g ≤ 1) (hE : Loewner E E') : Loewner G G' := by
  obtain ⟨Q, l, hQ, hl, e1, e2, e3⟩ := h
  obtain ⟨Q', l', hQ', hl', e1', e2', e3'⟩ := h'
  obtain ⟨U, hU, rfl⟩ := rotation hQ (e1.symm.trans e1')
  rw [rotate_eq] at e2' e3'
  have hQt : IsUnit Qᵀ.det := by rwa [det_transpose]
  have hlow : Loewner (spec 1 l) (spec U l') := by
    intro x
    have := hE (Qᵀ⁻¹ *ᵥ x)
    rw [e2, e2', quad_congr, quad_congr, mulVec_mulVec, mul_nonsing_inv _ hQt, one_mulVec] at this
    rwa [spec_one_left]
  have := loewner_heinz (by simp) hl hU hl' hlow g0 g1
  intro x
  rw [e3, e3', quad_congr, quad_congr]
  have h2 := this (Qᵀ *ᵥ x)
  rwa [spec_one_left] at h2

/-- The geodesic is monotone in both ends, and homogeneous: so a point of it moves by the weighted geometric mean of how far the ends move. -/
theorem mono (h : IsGeo S E g G) (h' : IsGeo S' E' g G') (g0 : 0 ≤ g) (g1 : g ≤ 1) {a b : ℝ} (ha : 0 < a) (hb : 0 < b)
    (hS : Loewner S (a • S')) (hE : Loewner E (b • E')) (pS : PD S) (pE' : PD E') : Loewner G ((a ^ (1 - g) * b ^ g) • G') := by
  obtain ⟨K, hK⟩ := exists_of_pd pS pE' g
  have h1 := mono_right h (hK.smul_right hb) g0 g1 hE
  have h2 := mono_right hK.symm (h'.symm.smul_right ha) (by linarith) (by linarith) hS
  intro x
  have e1 := h1 x
  have e2 := h2 x
  rw [quad_smul] at e1 e2 ⊢
  have := mul_le_mul_of_nonneg_left e2 (Real.rpow_pos_of_pos hb g).le
  calc quad G x ≤ _ := e1
    _ ≤ _ := this
    _ = _ := by ring

end IsGeo

/-- What `geodesic_step` computes is the geodesic between the floored ends. -/
theorem isGeo_step (L : Lapack) (A B : Matrix ι ι ℝ) (g : ℝ) : IsGeo (makePosDef L A) (makePosDef L B) g (geodesicStep L A B g) := by
  obtain ⟨R, Ri, hR, hRi, hRR, hRRi, hRiR, v, w, hv, hw, hM, hg⟩ := geodesic_facts L A B
  have hd : IsUnit (R * v).det := by
    rw [det_mul]
    refine (isUnit_iff_ne_zero.2 hR.det_pos.ne').mul (isUnit_iff_ne_zero.2 fun h => ?_)
    have := congrArg det hv
    rw [det_mul, det_transpose, h, det_one] at this; norm_num at this
  have e : ∀ f : ι → ℝ, R * v * diagonal f * (R * v)ᵀ = R * spec v f * R := by
    intro f; rw [IsGeo.rotate_eq, hR.1.transpose]
  refine ⟨R * v, w, hd, hw, ?_, ?_, ?_⟩
  · have := e fun _ => 1
    rw [diagonal_one, Matrix.mul_one, spec_one hv, Matrix.mul_one, hRR] at this
    exact this.symm
  · rw [e, ← hM]
    have : R * (Ri * makePosDef L B * Ri) * R = (R * Ri) * makePosDef L B * (Ri * R) := by simp only [Matrix.mul_assoc]
    rw [this, hRRi, hRiR, Matrix.one_mul, Matrix.mul_one]
  · rw [e, hg]

end Precise
