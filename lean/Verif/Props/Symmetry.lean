import Verif.Lemmas.Symmetry

/-!
# C65: changes of orthonormal coordinates, units and origin

`Transports C C' p p' g m c` (`Spec/Symmetry.lean`): feeding `g x` instead of `x` in every call turns `location_` into
`m location_`, `covariance_` into `c covariance_`, and leaves `n_samples_` alone (unfitted stays unfitted).
A similarity is `x ↦ k Q x + b` with `Q` orthogonal and `k ≠ 0`: rotations, reflections, relabelling of the variables, a
common change of units and a change of origin.
-/

set_option linter.all false

open Matrix

namespace Precise

open Spec Obj

section
variable {ι κ : Type} [Fintype ι] [Fintype κ]

/-- two EWA states of the same age, related by `x ↦ A x + b` -/
structure EwaRel (A : Matrix κ ι ℝ) (b : κ → ℝ) (s : EwaState ι ℝ) (t : EwaState κ ℝ) : Prop where
  n : t.nSamples = s.nSamples
  r : t.r = s.r
  nBurn : t.nBurn = s.nBurn
  burn : 0 < s.nBurn
  cov : t.cov = A * s.cov * Aᵀ
  mean : 0 < s.nSamples → t.mean = affine A b s.mean
  symm : Symm s.cov

variable {A : Matrix κ ι ℝ} {b : κ → ℝ} {s : EwaState ι ℝ} {t : EwaState κ ℝ}

theorem ewaBurnN_pos (r : ℝ) : 0 < ewaBurnN r := by
  unfold ewaBurnN
  have : (5:ℤ) ≤ min 250 (max 5 ⌈1 / r⌉) := le_min (by norm_num) (le_max_left _ _)
  omega

theorem ewaRel_init (r : ℝ) : EwaRel A b (ewaInit r) (ewaInit r) :=
  ⟨rfl, rfl, rfl, ewaBurnN_pos r, by simp [ewaInit, empInit], by simp [ewaInit, empInit], symm_zero⟩

theorem EwaRel.burnStep (h : EwaRel A b s t) (x : ι → ℝ) : EwaRel A b (ewaBurnStep s x) (ewaBurnStep t (affine A b x)) := by
  refine ⟨?_, h.r, h.nBurn, h.burn, ?_, ?_, symm_empUpdate h.symm x⟩
  · show t.nSamples + 1 = s.nSamples + 1; rw [h.n]
  · show (empUpdate t.toEmpState _).cov = A * (empUpdate s.toEmpState x).cov * Aᵀ
    rcases Nat.eq_zero_or_pos s.nSamples with h0 | h0
    · rw [empUpdate_cov, empUpdate_cov, h.n, h0]; simp
    · exact (emp_affine_step A b _ _ x h.n (h.mean h0) h.cov).2
  · intro _
    show (empUpdate t.toEmpState _).mean = affine A b (empUpdate s.toEmpState x).mean
    rcases Nat.eq_zero_or_pos s.nSamples with h0 | h0
    · rw [empUpdate_mean, empUpdate_mean, h.n, h0]; simp
    · exact (emp_affine_step A b _ _ x h.n (h.mean h0) h.cov).1

/-- the innovation is transformed linearly -/
theorem EwaRel.dev (h : EwaRel A b s t) (h0 : 0 < s.nSamples) (x : ι → ℝ) :
    (fun i => affine A b x i - t.mean i) = A *ᵥ (fun i => x i - s.mean i) := by
  rw [h.mean h0]; exact affine_sub A b x s.mean

theorem EwaRel.blend (h : EwaRel A b s t) (h0 : 0 < s.nSamples) (ρ : ℝ) (x : ι → ℝ) :
    EwaRel A b { s with toEmpState := ewaBlend ρ s.toEmpState x } { t with toEmpState := ewaBlend ρ t.toEmpState (affine A b x) } := by
  refine ⟨?_, h.r, h.nBurn, h.burn, ?_, ?_, (h.symm.smul _).add ((symm_outer _).smul _)⟩
  · show t.nSamples + 1 = s.nSamples + 1; rw [h.n]
  · show (1 - ρ) • t.cov + ρ • outer _ _ = A * ((1 - ρ) • s.cov + ρ • outer _ _) * Aᵀ
    rw [h.dev h0 x, h.cov, Matrix.mul_add, Matrix.add_mul, Matrix.mul_smul, Matrix.mul_smul, Matrix.smul_mul,
      Matrix.smul_mul, congr_outer]
  · intro _
    show (fun i => (1 - ρ) * t.mean i + ρ * affine A b x i) = affine A b (fun i => (1 - ρ) * s.mean i + ρ * x i)
    rw [h.mean h0, affine_combo A b _ _ _ _ (by ring)]

/-- the Huber step: a blend with a weighted innovation -/
theorem EwaRel.weighted (h : EwaRel A b s t) (h0 : 0 < s.nSamples) (w : ℝ) (x : ι → ℝ) :
    EwaRel A b
      { s with
        nSamples := s.nSamples + 1
        mean := fun i => s.mean i + s.r * (w * (x i - s.mean i))
        cov := (1 - s.r) • s.cov + s.r • outer (fun i => w * (x i - s.mean i)) (fun i => w * (x i - s.mean i)) }
      { t with
        nSamples := t.nSamples + 1
        mean := fun i => t.mean i + t.r * (w * (affine A b x i - t.mean i))
        cov := (1 - t.r) • t.cov + t.r • outer (fun i => w * (affine A b x i - t.mean i)) (fun i => w * (affine A b x i - t.mean i)) } := by
  have hd := h.dev h0 x
  have hwd : (fun i => w * (affine A b x i - t.mean i)) = A *ᵥ (fun i => w * (x i - s.mean i)) := by
    have e1 : (fun i => w * (x i - s.mean i)) = w • fun i => x i - s.mean i := rfl
    rw [e1, Matrix.mulVec_smul, ← hd]; rfl
  refine ⟨by show t.nSamples + 1 = s.nSamples + 1; rw [h.n], h.r, h.nBurn, h.burn, ?_, ?_, ?_⟩
  · show (1 - t.r) • t.cov + t.r • outer _ _ = A * ((1 - s.r) • s.cov + s.r • outer _ _) * Aᵀ
    rw [hwd, h.cov, h.r, Matrix.mul_add, Matrix.add_mul, Matrix.mul_smul, Matrix.mul_smul, Matrix.smul_mul,
      Matrix.smul_mul, congr_outer]
  · intro _
    show (fun i => t.mean i + t.r * (w * (affine A b x i - t.mean i))) = affine A b (fun i => s.mean i + s.r * (w * (x i - s.mean i)))
    have e2 : (fun i => s.mean i + s.r * (w * (x i - s.mean i))) = fun i => (1 - s.r * w) * s.mean i + (s.r * w) * x i := by
      ext i; ring
    rw [e2, affine_combo _ _ _ _ _ _ (by ring), h.mean h0, h.r]
    ext i; ring
  · exact (h.symm.smul _).add ((symm_outer _).smul _)

theorem EwaRel.pos (h : EwaRel A b s t) (hb : ¬ s.nSamples < s.nBurn) : 0 < s.nSamples := lt_of_lt_of_le h.burn (not_lt.1 hb)

theorem EwaRel.burning (h : EwaRel A b s t) : t.nSamples < t.nBurn ↔ s.nSamples < s.nBurn := by rw [h.n, h.nBurn]

theorem EwaRel.update (h : EwaRel A b s t) (x : ι → ℝ) : EwaRel A b (ewaUpdate s x) (ewaUpdate t (affine A b x)) := by
  unfold ewaUpdate
  by_cases hb : s.nSamples < s.nBurn
  · rw [if_pos hb, if_pos (h.burning.2 hb)]; exact h.burnStep x
  · rw [if_neg hb, if_neg (mt h.burning.1 hb)]
    have := h.blend (h.pos hb) s.r x
    rw [show t.r = s.r from h.r]
    rw [show t.r = s.r from h.r] at this
    exact this

end

/-! ## Similarities -/

section Similarity
variable {ι κ : Type} [Fintype ι] [Fintype κ] [DecidableEq ι] [DecidableEq κ]

theorem sim_cov {Q : Matrix κ ι ℝ} (k : ℝ) (a : Matrix ι ι ℝ) : (k • Q) * a * (k • Q)ᵀ = k ^ 2 • conj Q a := by
  unfold conj
  rw [Matrix.transpose_smul, Matrix.smul_mul, Matrix.smul_mul, Matrix.mul_smul, smul_smul, sq]

theorem toSymmetric_smul {τ : Type} (c : ℝ) (a : Matrix τ τ ℝ) : toSymmetric (c • a) = c • toSymmetric a := by
  ext i j; simp [toSymmetric]; ring

theorem frobSq_smul {τ : Type} [Fintype τ] (c : ℝ) (a : Matrix τ τ ℝ) : frobSq (c • a) = c ^ 2 * frobSq a := by
  unfold frobSq
  rw [Finset.mul_sum]
  refine Finset.sum_congr rfl fun i _ => ?_
  rw [Finset.mul_sum]
  refine Finset.sum_congr rfl fun j _ => ?_
  simp only [Matrix.smul_apply, smul_eq_mul]; ring

theorem sumSq_eq_frobSq {τ : Type} [Fintype τ] (a b : Matrix τ τ ℝ) : (∑ i, ∑ j, (a i j - b i j) ^ 2) = frobSq (a - b) := by
  unfold frobSq
  refine Finset.sum_congr rfl fun i _ => Finset.sum_congr rfl fun j _ => ?_
  rw [Matrix.sub_apply]; ring

variable {Q : Matrix κ ι ℝ} (hQ : Orth Q) {k : ℝ} (hk : k ≠ 0) (b : κ → ℝ)
include hQ hk

theorem sim_outer (x : ι → ℝ) : outer ((k • Q) *ᵥ x) ((k • Q) *ᵥ x) = k ^ 2 • conj Q (outer x x) := by
  rw [← sim_cov, congr_outer]

/-- Mahalanobis forms are invariant. -/
theorem sim_maha (L : Lapack) {a : Matrix ι ι ℝ} (ha : Symm a) (x : ι → ℝ) :
    quad (tryInvert L (k ^ 2 • conj Q a)) ((k • Q) *ᵥ x) = quad (tryInvert L a) x := by
  have hk2 : k ^ 2 ≠ 0 := pow_ne_zero 2 hk
  have e : tryInvert L (k ^ 2 • conj Q a) = (k ^ 2)⁻¹ • conj Q (tryInvert L a) := by
    refine IsPinv.unique (tryInvert_pinv L ((conj_symm hQ ha).smul _)) ?_
    obtain ⟨h1, h2, h3, h4⟩ := conj_isPinv hQ (tryInvert_pinv L ha)
    have c1 : ∀ (u v : Matrix κ κ ℝ), (k ^ 2 • u) * ((k ^ 2)⁻¹ • v) = u * v := by
      intro u v; rw [Matrix.smul_mul, Matrix.mul_smul, smul_smul, mul_inv_cancel₀ hk2, one_smul]
    have c2 : ∀ (u v : Matrix κ κ ℝ), ((k ^ 2)⁻¹ • u) * (k ^ 2 • v) = u * v := by
      intro u v; rw [Matrix.smul_mul, Matrix.mul_smul, smul_smul, inv_mul_cancel₀ hk2, one_smul]
    refine ⟨?_, ?_, ?_, ?_⟩
    · rw [c1, Matrix.mul_smul, h1]
    · rw [c2, Matrix.mul_smul, h2]
    · rw [c1]; exact h3
    · rw [c2]; exact h4
  have q1 : ∀ (c : ℝ) (m : Matrix κ κ ℝ) (y : κ → ℝ), quad (c • m) y = c * quad m y := by
    intro c m y; unfold quad; rw [Matrix.smul_mulVec, dotProduct_smul, smul_eq_mul]
  have q2 : ∀ (c : ℝ) (m : Matrix κ κ ℝ) (y : κ → ℝ), quad m (c • y) = c ^ 2 * quad m y := by
    intro c m y; unfold quad; rw [Matrix.mulVec_smul, dotProduct_smul, smul_dotProduct, smul_eq_mul, smul_eq_mul]; ring
  rw [e, q1, Matrix.smul_mulVec, q2, conj_quad hQ, ← mul_assoc, inv_mul_cancel₀ hk2, one_mul]

/-- C65: LedoitWolfCovariance respects similarities. -/
theorem C65_ledoitWolf_similarity (p : RParam ℝ) :
    Transports (ledoitWolfCls ι ℝ) (ledoitWolfCls κ ℝ) p p (affine (k • Q) b) (affine (k • Q) (offset p.diff b))
      (fun a => k ^ 2 • (Q * a * Qᵀ)) := by
  have hcard : (Fintype.card κ : ℝ) = Fintype.card ι := by exact_mod_cast orth_card hQ
  refine transports_of_sim (ledoitWolf_lawful ι ℝ) (ledoitWolf_lawful κ ℝ) rfl (fun calls => used_affine p.diff (k • Q) b calls)
    (fun s t => EwaRel (k • Q) (offset p.diff b) s.toEwaState t.toEwaState ∧ t.piBar = k ^ 4 * s.piBar)
    ⟨ewaRel_init p.r, by simp [ledoitWolfCls]⟩ ?_ (fun s t h h0 => h.1.mean h0) ?_
  · rintro (s : LWState ι ℝ) (t : LWState κ ℝ) x ⟨h, hp⟩
    show EwaRel _ _ (lwUpdate s x).toEwaState (lwUpdate t (affine (k • Q) (offset p.diff b) x)).toEwaState ∧
      (lwUpdate t (affine (k • Q) (offset p.diff b) x)).piBar = k ^ 4 * (lwUpdate s x).piBar
    refine ⟨by rw [lwUpdate_ewa, lwUpdate_ewa]; exact h.update x, ?_⟩
    unfold lwUpdate
    by_cases hb : s.nSamples < s.nBurn
    · rw [if_pos hb, if_pos (h.burning.2 hb)]; exact hp
    · rw [if_neg hb, if_neg (mt h.burning.1 hb)]
      simp only [sumSq_eq_frobSq]
      rw [h.dev (h.pos hb) x, h.r, h.cov, sim_outer hQ hk, sim_cov, ← smul_sub, frobSq_smul, hcard, hp]
      have : conj Q (outer (fun i => x i - s.mean i) fun i => x i - s.mean i) - conj Q s.cov
          = conj Q (outer (fun i => x i - s.mean i) (fun i => x i - s.mean i) - s.cov) := by
        unfold conj; rw [Matrix.mul_sub, Matrix.sub_mul]
      rw [this, conj_frobSq hQ]
      ring
  · rintro (s : LWState ι ℝ) (t : LWState κ ℝ) ⟨h, hp⟩ h0
    show toSymmetric (lwCov t) = k ^ 2 • conj Q (toSymmetric (lwCov s))
    rw [← conj_toSymmetric hQ, ← toSymmetric_smul]
    congr 1
    have hk4 : 0 < k ^ 4 := by positivity
    have htr : t.cov.trace / (Fintype.card κ : ℝ) = k ^ 2 * (s.cov.trace / (Fintype.card ι : ℝ)) := by
      rw [h.cov, sim_cov, Matrix.trace_smul, conj_trace hQ, hcard, smul_eq_mul]; ring
    unfold lwCov
    simp only [sumSq_eq_frobSq]
    rw [htr]
    generalize s.cov.trace / (Fintype.card ι : ℝ) = mu
    have hf : frobSq (t.cov - (k ^ 2 * mu) • (1 : Matrix κ κ ℝ)) / (Fintype.card κ : ℝ)
        = k ^ 4 * (frobSq (s.cov - mu • (1 : Matrix ι ι ℝ)) / (Fintype.card ι : ℝ)) := by
      have : t.cov - (k ^ 2 * mu) • (1 : Matrix κ κ ℝ) = k ^ 2 • conj Q (s.cov - mu • (1 : Matrix ι ι ℝ)) := by
        rw [h.cov, sim_cov, mul_smul, ← smul_sub, ← conj_one hQ, ← conj_smul hQ]
        unfold conj; rw [Matrix.mul_sub, Matrix.sub_mul]
      rw [this, frobSq_smul, conj_frobSq hQ, hcard]; ring
    rw [hf, hp, h.r]
    generalize frobSq (s.cov - mu • (1 : Matrix ι ι ℝ)) / (Fintype.card ι : ℝ) = d2
    have e1 : k ^ 4 * d2 ≤ 0 ↔ d2 ≤ 0 := by
      constructor
      · intro h; by_contra hc; push Not at hc; have := mul_pos hk4 hc; linarith
      · intro h; exact mul_nonpos_of_nonneg_of_nonpos hk4.le h
    have e2 : k ^ 4 * s.piBar ≤ 0 ↔ s.piBar ≤ 0 := by
      constructor
      · intro h; by_contra hc; push Not at hc; have := mul_pos hk4 hc; linarith
      · intro h; exact mul_nonpos_of_nonneg_of_nonpos hk4.le h
    by_cases hc : d2 ≤ 0 ∨ s.piBar ≤ 0
    · rw [if_pos hc, if_pos (by rw [e1, e2]; exact hc), h.cov, sim_cov]
    · rw [if_neg hc, if_neg (by rw [e1, e2]; exact hc)]
      have e3 : min (k ^ 4 * s.piBar * s.r) (k ^ 4 * d2) / (k ^ 4 * d2) = min (s.piBar * s.r) d2 / d2 := by
        rw [mul_assoc, ← mul_min_of_nonneg _ _ hk4.le, mul_div_mul_left _ _ hk4.ne']
      rw [e3, h.cov, sim_cov, conj_add hQ, conj_smul hQ, conj_smul hQ, conj_one hQ, smul_add, smul_smul, smul_smul, smul_smul]
      congr 2 <;> ring

/-- C65: OASCovariance respects similarities. -/
theorem C65_oas_similarity (p : RParam ℝ) :
    Transports (oasCls ι ℝ) (oasCls κ ℝ) p p (affine (k • Q) b) (affine (k • Q) (offset p.diff b))
      (fun a => k ^ 2 • (Q * a * Qᵀ)) := by
  have hcard : (Fintype.card κ : ℝ) = Fintype.card ι := by exact_mod_cast orth_card hQ
  refine transports_of_sim (oas_lawful ι ℝ) (oas_lawful κ ℝ) rfl (fun calls => used_affine p.diff (k • Q) b calls)
    (EwaRel (k • Q) (offset p.diff b)) (ewaRel_init p.r) (fun s t x h => h.update x) (fun s t h h0 => h.mean h0) ?_
  intro (s : EwaState ι ℝ) (t : EwaState κ ℝ) h h0
  show toSymmetric (oasCov t) = k ^ 2 • conj Q (toSymmetric (oasCov s))
  rw [← conj_toSymmetric hQ, ← toSymmetric_smul]
  congr 1
  have hk4 : 0 < k ^ 4 := by positivity
  have htr : t.cov.trace = k ^ 2 * s.cov.trace := by
    rw [h.cov, sim_cov, Matrix.trace_smul, conj_trace hQ, smul_eq_mul]
  have htr2 : (t.cov * t.cov).trace = k ^ 4 * (s.cov * s.cov).trace := by
    rw [h.cov, sim_cov, Matrix.smul_mul, Matrix.mul_smul, conj_mul hQ, smul_smul, Matrix.trace_smul, conj_trace hQ, smul_eq_mul]; ring
  unfold oasCov
  simp only []
  rw [htr, htr2, h.r, hcard]
  generalize s.cov.trace = tr
  generalize (s.cov * s.cov).trace = tr2
  generalize (Fintype.card ι : ℝ) = d
  have hn : (1 - 2 / d) * (k ^ 4 * tr2) + k ^ 2 * tr * (k ^ 2 * tr) = k ^ 4 * ((1 - 2 / d) * tr2 + tr * tr) := by ring
  have hd : ∀ c : ℝ, (c) * (k ^ 4 * tr2 - k ^ 2 * tr * (k ^ 2 * tr) / d) = k ^ 4 * (c * (tr2 - tr * tr / d)) := by intro c; ring
  rw [hn, hd]
  generalize (max (1 / s.r) 2 + 1 - 2 / d) * (tr2 - tr * tr / d) = den
  have e1 : k ^ 4 * den ≤ 0 ↔ den ≤ 0 := by
    constructor
    · intro h; by_contra hc; push Not at hc; have := mul_pos hk4 hc; linarith
    · intro h; exact mul_nonpos_of_nonneg_of_nonpos hk4.le h
  simp only [e1, mul_div_mul_left _ _ hk4.ne']
  rw [h.cov, sim_cov, conj_add hQ, conj_smul hQ, conj_smul hQ, conj_one hQ, smul_add, smul_smul, smul_smul, smul_smul]
  congr 2 <;> ring

/-- C65: ShrunkCovariance with the identity target respects similarities. -/
theorem C65_shrunk_identity_similarity (p : ShrunkParam) (ht : p.target = "identity") :
    Transports (shrunkCls ι) (shrunkCls κ) p p (affine (k • Q) b) (affine (k • Q) (offset p.diff b))
      (fun a => k ^ 2 • (Q * a * Qᵀ)) := by
  have hcard : (Fintype.card κ : ℝ) = Fintype.card ι := by exact_mod_cast orth_card hQ
  refine transports_of_sim (shrunk_lawful ι) (shrunk_lawful κ) rfl (fun calls => used_affine p.diff (k • Q) b calls)
    (EwaRel (k • Q) (offset p.diff b)) (ewaRel_init p.r) (fun s t x h => h.update x) (fun s t h h0 => h.mean h0) ?_
  intro (s : EwaState ι ℝ) (t : EwaState κ ℝ) h h0
  show toSymmetric (shrunkCov p t) = k ^ 2 • conj Q (toSymmetric (shrunkCov p s))
  rw [← conj_toSymmetric hQ, ← toSymmetric_smul]
  congr 1
  unfold shrunkCov
  simp only [if_pos ht]
  rw [h.cov, sim_cov, Matrix.trace_smul, conj_trace hQ, hcard, conj_add hQ, conj_smul hQ, conj_smul hQ, conj_smul hQ, conj_one hQ,
    smul_add, smul_smul, smul_smul, smul_smul, smul_smul, smul_smul, smul_eq_mul]
  congr 2 <;> ring

/-- C65: HuberCovariance respects similarities, singular states included. -/
theorem C65_huber_similarity (L : Lapack) (p : HuberParam) :
    Transports (huberCls L ι) (huberCls L κ) p p (affine (k • Q) b) (affine (k • Q) (offset p.diff b))
      (fun a => k ^ 2 • (Q * a * Qᵀ)) := by
  have hcard : (Fintype.card κ : ℝ) = Fintype.card ι := by exact_mod_cast orth_card hQ
  refine transports_of_sim (huber_lawful L ι) (huber_lawful L κ) rfl (fun calls => used_affine p.diff (k • Q) b calls)
    (EwaRel (k • Q) (offset p.diff b)) (ewaRel_init p.r) ?_ (fun s t h h0 => h.mean h0) ?_
  · intro (s : EwaState ι ℝ) (t : EwaState κ ℝ) x h
    show EwaRel _ _ (huberUpdate L p s x) (huberUpdate L p t _)
    unfold huberUpdate
    by_cases hb : s.nSamples < s.nBurn
    · rw [if_pos hb, if_pos (h.burning.2 hb)]; exact h.burnStep x
    · rw [if_neg hb, if_neg (mt h.burning.1 hb)]
      have hd := h.dev (h.pos hb) x
      have hw : huberWeight L p.c t.cov (fun i => affine (k • Q) (offset p.diff b) x i - t.mean i)
          = huberWeight L p.c s.cov (fun i => x i - s.mean i) := by
        unfold huberWeight
        rw [hd, h.cov, sim_cov, sim_maha hQ hk L h.symm, hcard]
      simp only []
      rw [hw]
      generalize huberWeight L p.c s.cov (fun i => x i - s.mean i) = w
      have := h.weighted (h.pos hb) w x
      exact this
  · intro (s : EwaState ι ℝ) (t : EwaState κ ℝ) h h0
    show toSymmetric t.cov = k ^ 2 • conj Q (toSymmetric s.cov)
    rw [h.cov, sim_cov, toSymmetric_smul, conj_toSymmetric hQ]

/-- C65: AdaptiveEwaCovariance respects similarities: in particular its effective rate does not depend on the units. -/
theorem C65_adaptive_similarity (L : Lapack) (p : AdaParam) :
    Transports (adaptiveCls L ι) (adaptiveCls L κ) p p (affine (k • Q) b) (affine (k • Q) (offset p.diff b))
      (fun a => k ^ 2 • (Q * a * Qᵀ)) := by
  have hcard := orth_card hQ
  refine transports_of_sim (adaptive_lawful L ι) (adaptive_lawful L κ) rfl (fun calls => used_affine p.diff (k • Q) b calls)
    (fun s t => EwaRel (k • Q) (offset p.diff b) s.toEwaState t.toEwaState ∧ t.maxR = s.maxR ∧ t.sbar = s.sbar)
    ⟨ewaRel_init p.r, rfl, rfl⟩ ?_ (fun s t h h0 => h.1.mean h0) ?_
  · rintro (s : AdaState ι) (t : AdaState κ) x ⟨h, hM, hS⟩
    show EwaRel _ _ (adaUpdate L s x).toEwaState (adaUpdate L t _).toEwaState ∧ (adaUpdate L t _).maxR = (adaUpdate L s x).maxR ∧
      (adaUpdate L t _).sbar = (adaUpdate L s x).sbar
    unfold adaUpdate
    by_cases hb : s.nSamples < s.nBurn
    · rw [if_pos hb, if_pos (h.burning.2 hb)]; exact ⟨h.burnStep x, hM, hS⟩
    · rw [if_neg hb, if_neg (mt h.burning.1 hb)]
      have hs : adaSbar L t (fun i => affine (k • Q) (offset p.diff b) x i - t.mean i) = adaSbar L s (fun i => x i - s.mean i) := by
        unfold adaSbar
        rw [h.dev (h.pos hb) x, h.cov, sim_cov, sim_maha hQ hk L h.symm, hcard, hS]
      have hr : adaRate L t (fun i => affine (k • Q) (offset p.diff b) x i - t.mean i) = adaRate L s (fun i => x i - s.mean i) := by
        unfold adaRate; rw [hs, h.r, hM]
      simp only []
      rw [hr, hs]
      exact ⟨h.blend (h.pos hb) _ x, hM, rfl⟩
  · rintro (s : AdaState ι) (t : AdaState κ) ⟨h, -⟩ h0
    show toSymmetric t.cov = k ^ 2 • conj Q (toSymmetric s.cov)
    rw [h.cov, sim_cov, toSymmetric_smul, conj_toSymmetric hQ]

end Similarity

end Precise
