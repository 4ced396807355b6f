import Verif.Props.TheoryBlocks
import Verif.Props.TheoryScalar

/-!
# C70: two vector blocks: the threshold is set by the top canonical correlation; what `canonical_corr2` reports
-/

set_option linter.all false

open Matrix

namespace Precise.Theory

open Precise.Spec

section Canon
variable {α β : Type} [Fintype α] [DecidableEq α] [Fintype β] [DecidableEq β]
variable {S11 : Matrix α α ℝ} {S12 : Matrix α β ℝ} {S22 : Matrix β β ℝ} {r : ℝ}

/-- covariance of block 2 explained by block 1 -/
noncomputable def expl (S11 : Matrix α α ℝ) (S12 : Matrix α β ℝ) : Matrix β β ℝ := S12ᵀ * S11⁻¹ * S12

theorem quad_expl (h11 : PD S11) (v : β → ℝ) : quad (expl S11 S12) v = quad S11 (S11⁻¹ *ᵥ (S12 *ᵥ v)) ∧
    ∀ u, u ⬝ᵥ S12 *ᵥ v = u ⬝ᵥ S11 *ᵥ (S11⁻¹ *ᵥ (S12 *ᵥ v)) := by
  have hu := isUnit_iff_ne_zero.2 h11.det_pos.ne'
  have h2 : ∀ u, u ⬝ᵥ S12 *ᵥ v = u ⬝ᵥ S11 *ᵥ (S11⁻¹ *ᵥ (S12 *ᵥ v)) := by
    intro u; rw [mulVec_mulVec (S12 *ᵥ v) S11 S11⁻¹, mul_nonsing_inv _ hu, one_mulVec]
  refine ⟨?_, h2⟩
  unfold quad expl
  rw [← h2, ← mulVec_mulVec, ← mulVec_mulVec, dotProduct_mulVec v, vecMul_transpose, dotProduct_comm]

theorem _root_.Precise.Spec.TopCorr.nonneg (h11 : PD S11) (h22 : PD S22) (h : TopCorr S11 S12 S22 r) : 0 ≤ r := by
  obtain ⟨-, u, v, hu, hv, e⟩ := h
  have hp : 0 < quad S11 u * quad S22 v := mul_pos (h11.2 u hu) (h22.2 v hv)
  by_contra hr
  have := sq_nonneg (u ⬝ᵥ S12 *ᵥ v)
  nlinarith

theorem _root_.Precise.Spec.TopCorr.expl_le (h11 : PD S11) (h22 : PD S22) (h : TopCorr S11 S12 S22 r) (v : β → ℝ) :
    quad (expl S11 S12) v ≤ r * quad S22 v := by
  have hr := h.nonneg h11 h22
  obtain ⟨e1, e2⟩ := quad_expl (S12 := S12) h11 v
  have h1 := h.1 (S11⁻¹ *ᵥ (S12 *ᵥ v)) v
  rw [e2] at h1
  change (quad S11 (S11⁻¹ *ᵥ (S12 *ᵥ v))) ^ 2 ≤ _ at h1
  rw [← e1] at h1
  have h0 : 0 ≤ quad (expl S11 S12) v := by rw [e1]; exact h11.psd.2 _
  rcases h0.eq_or_lt with h0 | h0
  · rw [← h0]; exact mul_nonneg hr (h22.psd.2 v)
  · have : quad (expl S11 S12) v * quad (expl S11 S12) v ≤ (r * quad S22 v) * quad (expl S11 S12) v := by nlinarith
    exact le_of_mul_le_mul_right this h0

theorem _root_.Precise.Spec.TopCorr.attained (h11 : PD S11) (h22 : PD S22) (h : TopCorr S11 S12 S22 r) :
    ∃ v, v ≠ 0 ∧ quad (expl S11 S12) v = r * quad S22 v := by
  obtain ⟨u, v, hu, hv, e⟩ := h.2
  refine ⟨v, hv, le_antisymm (h.expl_le h11 h22 v) ?_⟩
  obtain ⟨e1, e2⟩ := quad_expl (S12 := S12) h11 v
  have hcs := h11.psd.cauchy_schwarz u (S11⁻¹ *ᵥ (S12 *ᵥ v))
  rw [← e2, ← e1, ← pow_two, e] at hcs
  have hp := h11.2 u hu
  have : quad S11 u * (r * quad S22 v) ≤ quad S11 u * quad (expl S11 S12) v := by nlinarith
  exact le_of_mul_le_mul_left this hp

/-- PD of `S22 - c E` for `c ≥ 0` -/
theorem pd_sub_expl (h11 : PD S11) (h22 : PD S22) (h : TopCorr S11 S12 S22 r) {c : ℝ} (hc : 0 ≤ c) :
    PD (S22 - c • expl S11 S12) ↔ c * r < 1 := by
  have hs : Symm (expl S11 S12) := by
    have := h11.inv.1.congr S12ᵀ
    rwa [transpose_transpose] at this
  constructor
  · intro hp
    obtain ⟨v, hv, e⟩ := h.attained h11 h22
    have := hp.2 v hv
    rw [quad_sub, quad_smul, e] at this
    have h2 := h22.2 v hv
    have : 0 < (1 - c * r) * quad S22 v := by linarith
    have := (pos_iff_pos_of_mul_pos this).2 h2
    linarith
  · intro hcr
    refine ⟨h22.1.sub (hs.smul c), fun v hv => ?_⟩
    rw [quad_sub, quad_smul]
    have h1 := mul_le_mul_of_nonneg_left (h.expl_le h11 h22 v) hc
    have h2 := h22.2 v hv
    have : 0 < (1 - c * r) * quad S22 v := mul_pos (by linarith) h2
    linarith

/-- for a valid covariance the top correlation is below 1 -/
theorem _root_.Precise.Spec.TopCorr.lt_one (h11 : PD S11) (h22 : PD S22) (h : TopCorr S11 S12 S22 r) (hc : PD (S22 - expl S11 S12)) : r < 1 := by
  have := (pd_sub_expl h11 h22 h zero_le_one).1 (by rwa [one_smul])
  linarith

/-- it is determined by the covariance … -/
theorem C70_topcorr_unique (h11 : PD S11) (h22 : PD S22) {r' : ℝ} (h : TopCorr S11 S12 S22 r) (h' : TopCorr S11 S12 S22 r') : r = r' := by
  obtain ⟨v, hv, e⟩ := h.attained h11 h22
  obtain ⟨v', hv', e'⟩ := h'.attained h11 h22
  have h1 := h'.expl_le h11 h22 v
  have h2 := h.expl_le h11 h22 v'
  rw [e] at h1; rw [e'] at h2
  have p1 := h22.2 v hv
  have p2 := h22.2 v' hv'
  exact le_antisymm (le_of_mul_le_mul_right h1 p1) (le_of_mul_le_mul_right h2 p2)

/-- … and exists. -/
theorem C70_topcorr_exists [Nonempty α] [Nonempty β] (h11 : PD S11) (h22 : PD S22) (S12 : Matrix α β ℝ) : ∃ r, TopCorr S11 S12 S22 r := by
  classical
  have hs : Symm (expl S11 S12) := by
    have := h11.inv.1.congr S12ᵀ
    rwa [transpose_transpose] at this
  obtain ⟨q, hq, hqq⟩ := h22.inv.exists_sqrt
  -- whitened explained covariance
  have hW : Symm (q * expl S11 S12 * qᵀ) := hs.congr q
  obtain ⟨⟨w, z⟩, hz, e⟩ := exists_spec hW
  change zᵀ * z = 1 at hz
  change q * expl S11 S12 * qᵀ = spec z w at e
  obtain ⟨k, -, hk⟩ := Finset.exists_max_image Finset.univ w Finset.univ_nonempty
  have hmax : MaxEigLE (spec z w) (w k) := maxEig_spec hz fun i => hk i (Finset.mem_univ i)
  have hqd := hq.det_pos.ne'
  have hqu := isUnit_iff_ne_zero.2 hqd
  have h22u := isUnit_iff_ne_zero.2 h22.det_pos.ne'
  have hqt : qᵀ = q := hq.1.transpose
  have hn : ∀ x, quad S22 (q *ᵥ x) = normSq x := by
    intro x
    have : quad S22 (q *ᵥ x) = quad (q * S22 * q) x := by
      have h1 := quad_congr q S22 x
      rw [hqt] at h1; exact h1.symm
    rw [this]
    have : q * S22 * q = 1 := by
      have h1 : q * q * S22 = 1 := by rw [hqq, nonsing_inv_mul _ h22u]
      have h2 : q * (q * S22) = 1 := by rw [← Matrix.mul_assoc]; exact h1
      exact mul_eq_one_comm.1 h2
    rw [this, quad_one]
  have he : ∀ x, quad (expl S11 S12) (q *ᵥ x) = quad (spec z w) x := by
    intro x
    rw [← e, quad_congr, hqt]
  have hle : ∀ v, quad (expl S11 S12) v ≤ w k * quad S22 v := by
    intro v
    have ev : v = q *ᵥ (q⁻¹ *ᵥ v) := by rw [mulVec_mulVec, mul_nonsing_inv _ hqu, one_mulVec]
    rw [ev, he, hn]
    exact hmax _
  have hwk : 0 ≤ w k := by
    have hx : PSD (spec z w) := by
      rw [← e]
      refine PSD.congr ⟨hs, fun v => ?_⟩ q
      rw [(quad_expl h11 v).1]; exact h11.psd.2 _
    exact eigs_nonneg hz hx k
  refine ⟨w k, fun u v => ?_, ?_⟩
  · obtain ⟨e1, e2⟩ := quad_expl (S12 := S12) h11 v
    have hcs := h11.psd.cauchy_schwarz u (S11⁻¹ *ᵥ (S12 *ᵥ v))
    rw [← e2, ← e1, ← pow_two] at hcs
    have := mul_le_mul_of_nonneg_left (hle v) (h11.psd.2 u)
    nlinarith
  · let v : β → ℝ := q *ᵥ (fun i => z i k)
    have hv : v ≠ 0 := by
      intro h0
      have : q⁻¹ *ᵥ v = 0 := by rw [h0, mulVec_zero]
      rw [mulVec_mulVec, nonsing_inv_mul _ hqu, one_mulVec] at this
      exact col_ne_zero hz k this
    have hve : quad (expl S11 S12) v = w k * quad S22 v := by
      rw [he, hn, quad_spec_col hz, normSq_col hz, mul_one]
    obtain ⟨e1, e2⟩ := quad_expl (S12 := S12) h11 v
    by_cases hw : w k = 0
    · obtain ⟨i⟩ := ‹Nonempty α›
      refine ⟨Pi.single i 1, v, fun h => ?_, hv, ?_⟩
      · have := congrFun h i; simp at this
      · rw [hw, zero_mul] at hve ⊢
        have hcs := h11.psd.cauchy_schwarz (Pi.single i 1) (S11⁻¹ *ᵥ (S12 *ᵥ v))
        rw [← e2, ← e1, hve, ← pow_two, mul_zero] at hcs
        exact le_antisymm hcs (sq_nonneg _)
    · refine ⟨S11⁻¹ *ᵥ (S12 *ᵥ v), v, fun h => ?_, hv, ?_⟩
      · rw [h] at e1
        have h2 := h22.2 v hv
        rw [hve] at e1
        have : quad S11 (0 : α → ℝ) = 0 := by simp [quad]
        rw [this] at e1
        exact hw ((mul_eq_zero.1 e1).resolve_right h2.ne')
      · rw [e2]
        change (quad S11 (S11⁻¹ *ᵥ (S12 *ᵥ v))) ^ 2 = _
        rw [← e1, pow_two]
        conv_lhs => rw [hve]
        conv_rhs => rw [hve]
        ring

end Canon

/-- C70: with two blocks, the closed form is positive-definite exactly when `gamma²(1 - rho²) > (1 - gamma) rho²`, where `rho²` is
the top squared canonical correlation of the truth. -/
theorem C70_pd_iff {p : ℕ} (T : Matrix (Fin p) (Fin p) ℝ) (p1 p2 : ℕ) (gamma r : ℝ) (hT : PD T) (hp : p1 + p2 = p) (hg : gamma ≠ 0)
    (hr : TopCorr (subWW T p1) (subKW T p1 p2)ᵀ (subKK T p1 p2) r) :
    PD (closedFormGeneral T [p1, p2] gamma) ↔ gamma ^ 2 * (1 - r) > (1 - gamma) * r := by
  have hsum : [p1, p2].sum = p := by simpa using hp
  have h := C69_pd_iff T [p1, p2] gamma hT hsum hg
  simp only [blocksFrom, List.mem_cons, List.not_mem_nil, or_false, zero_add, forall_eq_or_imp, forall_eq] at h
  rw [h]
  have hW := pd_WW hT p1
  have hK : PD (subKK T p1 p2) := by
    rw [← PTP]
    refine hT.congr_inj _ fun x hx => ?_
    have := congrArg (fun z => selP p p1 p2 *ᵥ z) hx
    simpa [mulVec_mulVec, PPt] using this
  have hM : (Matrix.of fun i j : Pre p p1 => closedFormGeneral T [p1, p2] gamma i.1 j.1) = subWW T p1 := by
    ext i j; exact (C69_shape T [p1, p2] gamma hT hsum).2 i.1 j.1 (by simpa using i.2) (by simpa using j.2)
  have h1 : PD (condCov T 0 p1 - ((1 - gamma) / gamma ^ 2) • (regression T 0 p1 * (Matrix.of fun i j : Pre p 0 => closedFormGeneral T [p1, p2] gamma i.1 j.1) * (regression T 0 p1)ᵀ)) := by
    haveI : IsEmpty (Pre p 0) := ⟨fun i => absurd i.2 (by omega)⟩
    have : regression T 0 p1 * (Matrix.of fun i j : Pre p 0 => closedFormGeneral T [p1, p2] gamma i.1 j.1) * (regression T 0 p1)ᵀ = 0 := by
      ext i j; simp [Matrix.mul_apply]
    rw [this, smul_zero, sub_zero]
    exact pd_condCov hT 0 p1
  have hE : regression T p1 p2 * subWW T p1 * (regression T p1 p2)ᵀ = expl (subWW T p1) (subKW T p1 p2)ᵀ := by
    rw [regression_normal p2 hW.det_pos.ne', regression_eq, transpose_mul, transpose_nonsing_inv, hW.1.transpose, ← Matrix.mul_assoc]
    unfold expl; rw [transpose_transpose]
  have hC : condCov T p1 p2 = subKK T p1 p2 - expl (subWW T p1) (subKW T p1 p2)ᵀ := by
    rw [condCov_eq hT.1, regression_eq]; unfold expl; rw [transpose_transpose]
  have e : condCov T p1 p2 - ((1 - gamma) / gamma ^ 2) • (regression T p1 p2 * subWW T p1 * (regression T p1 p2)ᵀ) =
      subKK T p1 p2 - (1 + (1 - gamma) / gamma ^ 2) • expl (subWW T p1) (subKW T p1 p2)ᵀ := by
    rw [hE, hC, add_smul, one_smul]; abel
  have hg2 : 0 < gamma ^ 2 := by positivity
  have hc : 0 ≤ 1 + (1 - gamma) / gamma ^ 2 := by
    rw [← sub_nonneg, sub_zero]
    have : 1 + (1 - gamma) / gamma ^ 2 = (gamma ^ 2 + 1 - gamma) / gamma ^ 2 := by field_simp; ring
    rw [this]
    exact div_nonneg (by nlinarith [sq_nonneg (gamma - 1/2)]) hg2.le
  rw [hM, e, pd_sub_expl hW hK hr hc]
  constructor
  · rintro ⟨-, h⟩
    have := mul_lt_mul_of_pos_right h hg2
    have e2 : (1 + (1 - gamma) / gamma ^ 2) * r * gamma ^ 2 = gamma ^ 2 * r + (1 - gamma) * r := by field_simp
    rw [e2] at this
    linarith
  · intro h
    refine ⟨h1, ?_⟩
    have e2 : (1 + (1 - gamma) / gamma ^ 2) * r = (gamma ^ 2 * r + (1 - gamma) * r) / gamma ^ 2 := by field_simp
    rw [e2, div_lt_one hg2]
    linarith

/-- C70: hence, for `gamma > 0` and a real coupling, exactly when `gamma` exceeds `_solve_spd_threshold(rho²)`. -/
theorem C70_threshold {p : ℕ} (T : Matrix (Fin p) (Fin p) ℝ) (p1 p2 : ℕ) (gamma r : ℝ) (hT : PD T) (hp : p1 + p2 = p) (hg : 0 < gamma)
    (hr : TopCorr (subWW T p1) (subKW T p1 p2)ᵀ (subKK T p1 p2) r) (h0 : r ≠ 0) :
    PD (closedFormGeneral T [p1, p2] gamma) ↔ solveSpdThreshold r < gamma := by
  have hW := pd_WW hT p1
  have hK : PD (subKK T p1 p2) := by
    rw [← PTP]
    refine hT.congr_inj _ fun x hx => ?_
    have := congrArg (fun z => selP p p1 p2 *ᵥ z) hx
    simpa [mulVec_mulVec, PPt] using this
  have hr0 := hr.nonneg hW hK
  have hr1 : r < 1 := by
    refine hr.lt_one hW hK ?_
    have hC : condCov T p1 p2 = subKK T p1 p2 - expl (subWW T p1) (subKW T p1 p2)ᵀ := by
      rw [condCov_eq hT.1, regression_eq]; unfold expl; rw [transpose_transpose]
    rw [← hC]; exact pd_condCov hT p1 p2
  rw [C70_pd_iff T p1 p2 gamma r hT hp hg.ne' hr]
  exact (C68_threshold r gamma (lt_of_le_of_ne hr0 (Ne.symm h0)) hr1 hg).2.2

/-! ## what `canonical_corr2` reports -/

section Report
variable {α β : Type} [Fintype α] [DecidableEq α] [Fintype β] [DecidableEq β] (L : Lapack)

theorem exists_eig_ge {a : Matrix α α ℝ} (ha : Symm a) {c : ℝ} {x : α → ℝ} (hx : x ≠ 0) (h : c * normSq x ≤ quad a x) :
    ∃ i, c ≤ (L.eigh a).1 i := by
  by_contra hcon
  push Not at hcon
  have hs := L.eigh_spec ha
  have ho := L.eigh_orth a ha
  have : PD (c • (1 : Matrix α α ℝ) - a) := by
    have e : c • (1 : Matrix α α ℝ) - a = spec (L.eigh a).2 (fun i => c * 1 + -1 * (L.eigh a).1 i) := by
      rw [spec_add, spec_smul, spec_smul, spec_one ho, ← hs]
      simp [sub_eq_add_neg]
    rw [e]
    exact pd_spec ho fun i => by have := hcon i; linarith
  have h2 := this.2 x hx
  rw [quad_sub, quad_smul, quad_one] at h2
  linarith

/-- C70: the largest value `canonical_corr2` reports is never below the true top squared canonical correlation, so the threshold
computed from it is never too optimistic … -/
theorem C70_reported_not_below {S11 : Matrix α α ℝ} {S12 : Matrix α β ℝ} {S22 : Matrix β β ℝ} {r : ℝ} (h11 : PD S11) (h22 : PD S22)
    (h : TopCorr S11 S12 S22 r) (hc : PD (S22 - expl S11 S12)) (h0 : r ≠ 0) : ∃ i, r ≤ canonicalCorr2 L S11 S12 S22 i := by
  obtain ⟨v, hv, e⟩ := h.attained h11 h22
  have h1 := h.lt_one h11 h22 hc
  have hr := h.nonneg h11 h22
  -- `v` is an eigenvector: `E v = r S22 v`
  have hs : Symm (expl S11 S12) := by
    have := h11.inv.1.congr S12ᵀ
    rwa [transpose_transpose] at this
  have hpsd : PSD (r • S22 - expl S11 S12) := ⟨(h22.1.smul r).sub hs, fun x => by
    rw [quad_sub, quad_smul]; have := h.expl_le h11 h22 x; linarith⟩
  have hz : (r • S22 - expl S11 S12) *ᵥ v = 0 := (hpsd.quad_eq_zero_iff v).1 (by rw [quad_sub, quad_smul, e]; ring)
  have hev : expl S11 S12 *ᵥ v = r • (S22 *ᵥ v) := by
    rw [sub_mulVec, smul_mulVec, sub_eq_zero] at hz; exact hz.symm
  have h22u := isUnit_iff_ne_zero.2 h22.det_pos.ne'
  let w : α → ℝ := S11⁻¹ *ᵥ (S12 *ᵥ v)
  have hw : canonM S11 S12 S22 *ᵥ w = r • w := by
    have e1 : S12ᵀ *ᵥ w = r • (S22 *ᵥ v) := by
      rw [← hev]; show S12ᵀ *ᵥ (S11⁻¹ *ᵥ (S12 *ᵥ v)) = _
      unfold expl; rw [mulVec_mulVec, mulVec_mulVec]
    unfold canonM
    rw [← mulVec_mulVec, ← mulVec_mulVec w S22⁻¹, e1, mulVec_smul, mulVec_mulVec v, nonsing_inv_mul _ h22u, one_mulVec, mulVec_smul, ← mulVec_mulVec]
  have hw0 : w ≠ 0 := by
    intro hw0
    have e2 := (quad_expl (S12 := S12) h11 v).1
    change quad (expl S11 S12) v = quad S11 w at e2
    rw [hw0, e] at e2
    have : quad S11 (0 : α → ℝ) = 0 := by simp [quad]
    rw [this] at e2
    exact h0 ((mul_eq_zero.1 e2).resolve_right (h22.2 v hv).ne')
  have hq : quad (toSymmetric (canonM S11 S12 S22)) w = r * normSq w := by
    rw [quad_toSymmetric]
    unfold quad
    rw [hw, dotProduct_smul, smul_eq_mul]; rfl
  obtain ⟨i, hi⟩ := exists_eig_ge L (symm_toSymmetric _) hw0 hq.ge
  exact ⟨i, le_min (le_max_of_le_left hi) h1.le⟩

/-- C70: … but it can be far above: it takes the eigenvalues of the symmetric part of a matrix that is not symmetric. Here the
truth has `rho² = 1/2`, the function reports 1, and the threshold formula then divides 0 by 0. -/
theorem C70_reported_wrong :
    let S11 : Matrix (Fin 2) (Fin 2) ℝ := !![1, 0; 0, 100]
    let S12 : Matrix (Fin 2) (Fin 1) ℝ := !![1/2; 5]
    let S22 : Matrix (Fin 1) (Fin 1) ℝ := !![1]
    PD (fromBlocks S11 S12 S12ᵀ S22) ∧ TopCorr S11 S12 S22 (1 / 2) ∧ (∃ i, canonicalCorr2 L S11 S12 S22 i = 1) ∧
      2 * (1 - (1 : ℝ)) = 0 ∧ -(1 : ℝ) + Real.sqrt (1 * 1 - 4 * (1 - 1) * (-1)) = 0 := by
  intro S11 S12 S22
  have hi : S11⁻¹ = !![1, 0; 0, 1/100] := by
    apply inv_eq_left_inv
    ext i j; fin_cases i <;> fin_cases j <;> norm_num [S11, Matrix.mul_apply, Fin.sum_univ_two, Matrix.one_apply]
  have hi2 : S22⁻¹ = !![1] := by
    apply inv_eq_left_inv
    ext i j; fin_cases i; fin_cases j; simp [S22, Matrix.mul_apply]
  have h11 : PD S11 := by
    have : S11 = diagonal ![1, 100] := by ext i j; fin_cases i <;> fin_cases j <;> simp [S11, diagonal]
    rw [this]; exact pd_diagonal (by intro i; fin_cases i <;> norm_num)
  have h22 : PD S22 := by
    have : S22 = 1 := by ext i j; fin_cases i; fin_cases j; simp [S22]
    rw [this]; exact pd_one
  have hE : expl S11 S12 = !![1/2] := by
    unfold expl; rw [hi]
    ext i j; fin_cases i; fin_cases j; norm_num [S12, Matrix.mul_apply, Fin.sum_univ_two]
  have h1 : ((-1 : ℝ) + Real.sqrt (1 * 1 - 4 * (1 - 1) * (-1))) = 0 := by norm_num
  refine ⟨?_, ⟨fun u v => ?_, ![1, 1/10], ![1], ?_, ?_, ?_⟩, ?_, by norm_num, h1⟩
  · have := (pd_schur_iff h11 S12ᵀ h22.1).2 (by
      have e : S22 - S12ᵀ * S11⁻¹ * S12ᵀᵀ = S22 - expl S11 S12 := rfl
      rw [e, hE]
      have : S22 - !![1/2] = (1/2 : ℝ) • (1 : Matrix (Fin 1) (Fin 1) ℝ) := by
        ext i j; fin_cases i; fin_cases j; norm_num [S22]
      rw [this]; exact pd_one.smul (by norm_num))
    rwa [transpose_transpose] at this
  · simp [S11, S12, S22, quad, dotProduct, mulVec, Fin.sum_univ_two]
    nlinarith [sq_nonneg (u 0 * v 0 - 10 * (u 1 * v 0))]
  · intro h; have := congrFun h 0; simp at this
  · intro h; have := congrFun h 0; simp at this
  · simp [S11, S12, S22, quad, dotProduct, mulVec, Fin.sum_univ_two]; norm_num
  · have hM : canonM S11 S12 S22 = !![1/4, 5/2; 1/40, 1/4] := by
      unfold canonM; rw [hi, hi2]
      ext i j; fin_cases i <;> fin_cases j <;> norm_num [S12, Matrix.mul_apply, Fin.sum_univ_two, vecMul, dotProduct]
    obtain ⟨i, hi⟩ := exists_eig_ge L (symm_toSymmetric (canonM S11 S12 S22)) (c := 1) (x := ![1, 1]) (by intro h; have := congrFun h 0; simp at this) (by
      rw [quad_toSymmetric, hM]
      simp [quad, normSq, dotProduct, mulVec, Fin.sum_univ_two]; norm_num)
    refine ⟨i, ?_⟩
    unfold canonicalCorr2
    exact min_eq_right (le_max_of_le_left hi)

/-- C70: when the first block is white (`S11 = c I`) the matrix is symmetric and every reported value is at most the true top
correlation, so the largest is exact. -/
theorem C70_exact_when_white {S12 : Matrix α β ℝ} {S22 : Matrix β β ℝ} {c r : ℝ} (hcp : 0 < c) (h22 : PD S22)
    (h : TopCorr (c • (1 : Matrix α α ℝ)) S12 S22 r) (i : α) : canonicalCorr2 L (c • (1 : Matrix α α ℝ)) S12 S22 i ≤ r := by
  have h11 : PD (c • (1 : Matrix α α ℝ)) := pd_one.smul hcp
  have hr := h.nonneg h11 h22
  have hinv : (c • (1 : Matrix α α ℝ))⁻¹ = c⁻¹ • (1 : Matrix α α ℝ) := by
    apply inv_eq_left_inv; rw [Matrix.smul_mul, Matrix.one_mul, smul_smul, inv_mul_cancel₀ hcp.ne', one_smul]
  have hM : canonM (c • (1 : Matrix α α ℝ)) S12 S22 = c⁻¹ • (S12 * S22⁻¹ * S12ᵀ) := by
    unfold canonM; rw [hinv, Matrix.smul_mul, Matrix.one_mul, Matrix.smul_mul, Matrix.mul_assoc]
  have hsym : Symm (canonM (c • (1 : Matrix α α ℝ)) S12 S22) := by rw [hM]; exact (h22.inv.1.congr S12).smul _
  have hmax : MaxEigLE (canonM (c • (1 : Matrix α α ℝ)) S12 S22) r := by
    intro x
    rw [hM, quad_smul]
    -- with v = S22⁻¹ S12ᵀ x: x·S12 v = v·S22 v
    have h22u := isUnit_iff_ne_zero.2 h22.det_pos.ne'
    let v := S22⁻¹ *ᵥ (S12ᵀ *ᵥ x)
    have e1 : quad (S12 * S22⁻¹ * S12ᵀ) x = x ⬝ᵥ S12 *ᵥ v := by
      unfold quad; rw [← mulVec_mulVec, ← mulVec_mulVec]
    have e2 : quad S22 v = x ⬝ᵥ S12 *ᵥ v := by
      unfold quad
      have : S22 *ᵥ v = S12ᵀ *ᵥ x := by show S22 *ᵥ (S22⁻¹ *ᵥ (S12ᵀ *ᵥ x)) = _; rw [mulVec_mulVec, mul_nonsing_inv _ h22u, one_mulVec]
      rw [this, dotProduct_mulVec, vecMul_transpose, dotProduct_comm]
    have h1 := h.1 x v
    rw [quad_smul, quad_one, e2] at h1
    rw [e1]
    have hq : 0 ≤ x ⬝ᵥ S12 *ᵥ v := by rw [← e2]; exact h22.psd.2 v
    rcases hq.eq_or_lt with hq | hq
    · rw [← hq, mul_zero]; exact mul_nonneg hr (normSq_nonneg x)
    · have h2 : (x ⬝ᵥ S12 *ᵥ v) * (x ⬝ᵥ S12 *ᵥ v) ≤ (r * (c * normSq x)) * (x ⬝ᵥ S12 *ᵥ v) := by nlinarith
      have h3 := le_of_mul_le_mul_right h2 hq
      rw [inv_mul_le_iff₀ hcp]; linarith
  unfold canonicalCorr2
  rw [toSymmetric_of_symm hsym]
  have hs := L.eigh_spec hsym
  have ho := L.eigh_orth _ hsym
  have hi := eigs_le ho (by rw [← hs]; exact hmax) i
  exact (min_le_left _ _).trans (max_le hi hr)

end Report

-- C70_pd_iff meets its hypotheses on the demo truth: a top correlation exists
example : ∃ r, TopCorr (subWW demoT 2) (subKW demoT 2 1)ᵀ (subKK demoT 2 1) r := by
  haveI : Nonempty (Pre 3 2) := ⟨⟨0, by decide⟩⟩
  haveI : Nonempty (Blk 3 2 1) := ⟨⟨2, by decide⟩⟩
  refine C70_topcorr_exists (pd_WW demoT_pd 2) ?_ _
  rw [← PTP]
  refine demoT_pd.congr_inj _ fun x hx => ?_
  have := congrArg (fun z => selP 3 2 1 *ᵥ z) hx
  simpa [mulVec_mulVec, PPt] using this

end Precise.Theory
