import Verif.Lemmas.Theory

/-!
# C69: the general model of the Schur-likelihood paper (vector blocks, chains of any length)
-/

set_option linter.all false

open Matrix

namespace Precise.Theory

open Precise.Spec

variable {p : ℕ} (L : Lapack)

theorem trace_psd_nonneg {ι : Type} [Fintype ι] [DecidableEq ι] {A D : Matrix ι ι ℝ} (hA : PD A) (hD : PSD D) :
    0 ≤ (A * D).trace ∧ ((A * D).trace = 0 → D = 0) := by
  obtain ⟨⟨w, v⟩, hv, e⟩ := exists_spec hA.1
  change vᵀ * v = 1 at hv
  change A = spec v w at e
  have hw := eigs_pos hv (e ▸ hA)
  have ht : (A * D).trace = ∑ i, w i * (vᵀ * D * v) i i := by
    rw [e]; unfold spec
    rw [Matrix.mul_assoc, Matrix.mul_assoc, trace_mul_comm, Matrix.mul_assoc, Matrix.mul_assoc, trace]
    refine Finset.sum_congr rfl fun i _ => ?_
    rw [diag_apply, diagonal_mul, ← Matrix.mul_assoc]
  have hc : PSD (vᵀ * D * v) := by simpa using hD.congr vᵀ
  rw [ht]
  refine ⟨Finset.sum_nonneg fun i _ => mul_nonneg (hw i).le (hc.diag_nonneg i), fun h => ?_⟩
  have h0 := (Finset.sum_eq_zero_iff_of_nonneg fun i _ => mul_nonneg (hw i).le (hc.diag_nonneg i)).1 h
  have hd : ∀ i, (vᵀ * D * v) i i = 0 := fun i => by
    have := h0 i (Finset.mem_univ i)
    exact (mul_eq_zero.1 this).resolve_left (hw i).ne'
  have hz : vᵀ * D * v = 0 := by ext i j; exact hc.entry_zero (hd i) j
  have hvv := orth_comm hv
  calc D = (v * vᵀ) * D * (v * vᵀ) := by rw [hvv]; simp
    _ = v * (vᵀ * D * v) * vᵀ := by simp only [Matrix.mul_assoc]
    _ = 0 := by rw [hz]; simp

/-- One block: value at the truth's law, upper bound, and equality case. -/
theorem block_bound {T M : Matrix (Fin p) (Fin p) ℝ} (hT : PD T) (hM : Symm M) (g : ℝ) (a s : ℕ) :
    blockTerm L T M g a s ≤ ((-(1 / 2) * (Real.log (condCov T a s).det + Fintype.card (Blk p a s)) : ℝ) : WithBot ℝ) ∧
    (blockTerm L T M g a s = ((-(1 / 2) * (Real.log (condCov T a s).det + Fintype.card (Blk p a s)) : ℝ) : WithBot ℝ) ↔
      effG M g a s = regression T a s ∧ dampS M g a s = condCov T a s) := by
  have hW := pd_WW hT a
  have hS := pd_condCov hT a s
  have hsym : Symm (dampS M g a s) := by
    rw [dampS_eq]
    refine (symm_KK hM a s).sub (Symm.smul g ?_)
    have hi : Symm (subWW M a)⁻¹ := symm_of_transpose (by rw [transpose_nonsing_inv, (symm_WW hM a).transpose])
    rw [← Matrix.mul_assoc]
    exact hi.congr _
  have hR : residM T M g a s = condCov T a s + (regression T a s - effG M g a s) * subWW T a * (regression T a s - effG M g a s)ᵀ := by
    rw [residM_eq, resid_decomp hT.1 a s hW.det_pos.ne']
  have ho := L.eigh_orth _ hsym
  have hs := L.eigh_spec hsym
  unfold blockTerm
  simp only [toSymmetric_of_symm hsym]
  split
  · rename_i hneg
    obtain ⟨i, hi⟩ := hneg
    refine ⟨bot_le, ⟨fun h => absurd h (by simp), fun h => ?_⟩⟩
    have hP : PD (dampS M g a s) := by rw [h.2]; exact hS
    rw [hs] at hP
    exact absurd (eigs_pos ho hP i) (not_lt.2 hi)
  · rename_i hpos
    push Not at hpos
    have hP : PD (dampS M g a s) := by rw [hs]; exact pd_spec ho hpos
    have hdet : ∑ i, Real.log ((L.eigh (dampS M g a s)).1 i) = Real.log (dampS M g a s).det := by
      conv_rhs => rw [hs, det_spec ho]
      rw [Real.log_prod fun i _ => (hpos i).ne']
    obtain ⟨st1, st2⟩ := stein hP.inv hS
    have hlog : Real.log (dampS M g a s)⁻¹.det = - Real.log (dampS M g a s).det := by
      rw [det_nonsing_inv, Ring.inverse_eq_inv', Real.log_inv]
    have hE : PSD ((regression T a s - effG M g a s) * subWW T a * (regression T a s - effG M g a s)ᵀ) := hW.psd.congr _
    obtain ⟨t1, t2⟩ := trace_psd_nonneg hP.inv hE
    rw [hdet, hR, Matrix.mul_add, trace_add]
    rw [hlog] at st1 st2
    constructor
    · rw [WithBot.coe_le_coe]; linarith
    · rw [WithBot.coe_inj]
      constructor
      · intro h
        have e1 := st2 (by linarith)
        have e2 := t2 (by linarith)
        refine ⟨?_, ?_⟩
        · have hz : ∀ x, (regression T a s - effG M g a s)ᵀ *ᵥ x = 0 := by
            intro x
            by_contra hx
            have h1 := hW.2 _ hx
            rw [← quad_congr, e2] at h1
            simp [quad] at h1
          have : (regression T a s - effG M g a s)ᵀ = 0 := by
            ext i j
            have := congrFun (hz (Pi.single j 1)) i
            simpa using this
          have := congrArg Matrix.transpose this
          simp only [transpose_transpose, transpose_zero] at this
          exact (sub_eq_zero.1 this).symm
        · have := congrArg (·⁻¹) e1
          simpa [nonsing_inv_nonsing_inv _ (isUnit_iff_ne_zero.2 hP.det_pos.ne'), nonsing_inv_nonsing_inv _ (isUnit_iff_ne_zero.2 hS.det_pos.ne')] using this
      · rintro ⟨e1, e2⟩
        rw [e1, e2, sub_self]
        simp [nonsing_inv_mul _ (isUnit_iff_ne_zero.2 hS.det_pos.ne')]

/-- the optimal value, block by block -/
noncomputable def optFrom (T : Matrix (Fin p) (Fin p) ℝ) : ℕ → List ℕ → ℝ
  | _, [] => 0
  | a, s :: rest => -(1 / 2) * (Real.log (condCov T a s).det + Fintype.card (Blk p a s)) + optFrom T (a + s) rest

theorem withBot_add_eq {x y : WithBot ℝ} {u v : ℝ} (hx : x ≤ u) (hy : y ≤ v) : x + y ≤ ((u + v : ℝ) : WithBot ℝ) ∧
    (x + y = ((u + v : ℝ) : WithBot ℝ) ↔ x = u ∧ y = v) := by
  refine ⟨by rw [WithBot.coe_add]; exact add_le_add hx hy, ?_⟩
  induction x using WithBot.recBotCoe with
  | bot => exact ⟨fun h => absurd (h.symm.trans (WithBot.bot_add y)) (WithBot.coe_ne_bot), fun h => absurd h.1 (by simp)⟩
  | coe x =>
    induction y using WithBot.recBotCoe with
    | bot => exact ⟨fun h => absurd (h.symm.trans (WithBot.add_bot _)) (WithBot.coe_ne_bot), fun h => absurd h.2 (by simp)⟩
    | coe y =>
      rw [WithBot.coe_le_coe] at hx hy
      rw [← WithBot.coe_add, WithBot.coe_inj, WithBot.coe_inj, WithBot.coe_inj]
      constructor
      · intro h; constructor <;> linarith
      · rintro ⟨rfl, rfl⟩; rfl

theorem loglikFrom_bound {T M : Matrix (Fin p) (Fin p) ℝ} (hT : PD T) (hM : Symm M) (g : ℝ) (rest : List ℕ) : ∀ a,
    loglikFrom L T M g a rest ≤ (optFrom T a rest : ℝ) ∧
    (loglikFrom L T M g a rest = (optFrom T a rest : ℝ) ↔
      ∀ b ∈ blocksFrom a rest, effG M g b.1 b.2 = regression T b.1 b.2 ∧ dampS M g b.1 b.2 = condCov T b.1 b.2) := by
  induction rest with
  | nil => intro a; simp [loglikFrom, optFrom, blocksFrom]
  | cons s rest ih =>
    intro a
    obtain ⟨b1, b2⟩ := block_bound L hT hM g a s
    obtain ⟨r1, r2⟩ := ih (a + s)
    obtain ⟨c1, c2⟩ := withBot_add_eq b1 r1
    rw [loglikFrom, optFrom]
    refine ⟨c1, c2.trans ?_⟩
    rw [b2, r2]
    simp [blocksFrom]

theorem optFrom_eq {T : Matrix (Fin p) (Fin p) ℝ} (hT : PD T) (rest : List ℕ) : ∀ a, a + rest.sum ≤ p →
    optFrom T a rest = -(1 / 2) * (Real.log (subWW T (a + rest.sum)).det - Real.log (subWW T a).det + rest.sum) := by
  induction rest with
  | nil =>
    intro a _
    show (0:ℝ) = -(1 / 2) * (Real.log (subWW T a).det - Real.log (subWW T a).det + ((0:ℕ):ℝ))
    simp
  | cons s rest ih =>
    intro a h
    rw [List.sum_cons] at h ⊢
    rw [optFrom, ih (a + s) (by omega), card_blk a s (by omega), det_chain hT.1 a s (pd_WW hT a).det_pos.ne',
      Real.log_mul (pd_WW hT a).det_pos.ne' (pd_condCov hT a s).det_pos.ne', ← add_assoc]
    push_cast; ring

theorem opt_eq {T : Matrix (Fin p) (Fin p) ℝ} (hT : PD T) (sizes : List ℕ) (hp : sizes.sum = p) :
    optFrom T 0 sizes = -(1 / 2) * (Real.log T.det + p) := by
  rw [optFrom_eq hT sizes 0 (by omega), det_pre_zero, Real.log_one, zero_add, hp, det_pre_all]; ring

/-- C69: for any ordered partition and any `gamma ≠ 0` the closed form has, block by block, exactly the true regression as
damped regression and the true conditional covariance as damped conditional covariance. -/
theorem C69_recovers_law (T : Matrix (Fin p) (Fin p) ℝ) (sizes : List ℕ) (gamma : ℝ) (hT : PD T) (hp : sizes.sum = p) (hg : gamma ≠ 0)
    (hc : Conditionable (closedFormGeneral T sizes gamma) sizes) :
    ∀ b ∈ blocksFrom 0 sizes, effG (closedFormGeneral T sizes gamma) gamma b.1 b.2 = regression T b.1 b.2 ∧
      dampS (closedFormGeneral T sizes gamma) gamma b.1 b.2 = condCov T b.1 b.2 := fun b hb =>
  inflated_law hg (closedFormGeneral_eq T gamma hT sizes hp).2 (closedForm_inflated T gamma hT sizes hp b hb) (hc b hb)

/-- C69: it is symmetric, and its first block is the truth's. -/
theorem C69_shape (T : Matrix (Fin p) (Fin p) ℝ) (sizes : List ℕ) (gamma : ℝ) (hT : PD T) (hp : sizes.sum = p) :
    Symm (closedFormGeneral T sizes gamma) ∧ ∀ i j : Fin p, i.1 < sizes.headD 0 → j.1 < sizes.headD 0 → closedFormGeneral T sizes gamma i j = T i j := by
  refine ⟨(closedFormGeneral_eq T gamma hT sizes hp).2, fun i j hi hj => ?_⟩
  cases sizes with
  | nil => simp at hi
  | cons s rest =>
    rw [(closedFormGeneral_eq T gamma hT _ hp).1, closedFrom, closedFrom_pre T gamma rest (0 + s) _ i j (by simpa using hi) (by simpa using hj)]
    have h1 : (0:ℕ) ≤ i.1 ∧ i.1 < 0 + s := by simpa using hi
    have h2 : (0:ℕ) ≤ j.1 ∧ j.1 < 0 + s := by simpa using hj
    simp only [closedStep, Matrix.of_apply]
    rw [dif_pos h1, dif_pos h2]; simp

/-- C69: no candidate covariance has a higher expected Schur log-likelihood than `-(log det T + p)/2`, for any partition and any
`gamma` (0 included) … -/
theorem C69_bound (T M : Matrix (Fin p) (Fin p) ℝ) (sizes : List ℕ) (gamma : ℝ) (hT : PD T) (hM : Symm M) (hp : sizes.sum = p) :
    expectedSchurLoglik L T M sizes gamma ≤ ((-(1 / 2) * (Real.log T.det + p) : ℝ) : WithBot ℝ) := by
  rw [← opt_eq hT sizes hp]
  exact (loglikFrom_bound L hT hM gamma sizes 0).1

/-- C69: … the closed form attains it … -/
theorem C69_value (T : Matrix (Fin p) (Fin p) ℝ) (sizes : List ℕ) (gamma : ℝ) (hT : PD T) (hp : sizes.sum = p) (hg : gamma ≠ 0)
    (hc : Conditionable (closedFormGeneral T sizes gamma) sizes) :
    expectedSchurLoglik L T (closedFormGeneral T sizes gamma) sizes gamma = ((-(1 / 2) * (Real.log T.det + p) : ℝ) : WithBot ℝ) := by
  rw [← opt_eq hT sizes hp]
  exact (loglikFrom_bound L hT (closedFormGeneral_eq T gamma hT sizes hp).2 gamma sizes 0).2.2 (C69_recovers_law T sizes gamma hT hp hg hc)

/-- C69: … and is the only one that does (among candidates for which the score is defined: the leading blocks it inverts are
invertible). -/
theorem C69_unique (T M : Matrix (Fin p) (Fin p) ℝ) (sizes : List ℕ) (gamma : ℝ) (hT : PD T) (hM : Symm M) (hp : sizes.sum = p) (hg : gamma ≠ 0)
    (hc : Conditionable M sizes)
    (h : expectedSchurLoglik L T M sizes gamma = ((-(1 / 2) * (Real.log T.det + p) : ℝ) : WithBot ℝ)) :
    M = closedFormGeneral T sizes gamma := by
  rw [← opt_eq hT sizes hp] at h
  have hl := (loglikFrom_bound L hT hM gamma sizes 0).2.1 h
  ext i j
  refine inflated_unique T gamma hM (closedFormGeneral_eq T gamma hT sizes hp).2 sizes 0 (fun i j hi => absurd hi (by omega)) ?_
    (fun b hb => closedForm_inflated T gamma hT sizes hp b hb) i j (by rw [zero_add, hp]; exact i.2) (by rw [zero_add, hp]; exact j.2)
  exact fun b hb => law_inflated hg hM (hc b hb) (hl b hb).1 (hl b hb).2

/-- C69: at `gamma = 1` the closed form is the truth, for any partition: the ordinary Gaussian likelihood is proper and the
partition does not matter. -/
theorem C69_gamma_one (T : Matrix (Fin p) (Fin p) ℝ) (sizes : List ℕ) (hT : PD T) (hp : sizes.sum = p) : closedFormGeneral T sizes 1 = T := by
  symm
  ext i j
  refine inflated_unique T 1 hT.1 (closedFormGeneral_eq T 1 hT sizes hp).2 sizes 0 (fun i j hi => absurd hi (by omega)) ?_
    (fun b hb => closedForm_inflated T 1 hT sizes hp b hb) i j (by rw [zero_add, hp]; exact i.2) (by rw [zero_add, hp]; exact j.2)
  intro b hb
  refine law_inflated one_ne_zero hT.1 (pd_WW hT b.1).det_pos.ne' ?_ ?_
  · unfold effG; rw [one_smul]; rfl
  · rw [dampS_eq, one_smul, condCov_eq hT.1, regression_eq, Matrix.mul_assoc]

/-- C69: hence at `gamma = 1` the truth scores strictly higher than every other candidate covariance. -/
theorem C69_proper_at_one (T M : Matrix (Fin p) (Fin p) ℝ) (sizes : List ℕ) (hT : PD T) (hM : Symm M) (hp : sizes.sum = p)
    (hc : Conditionable M sizes) (hne : M ≠ T) : expectedSchurLoglik L T M sizes 1 < expectedSchurLoglik L T T sizes 1 := by
  have hcT : Conditionable (closedFormGeneral T sizes 1) sizes := by
    rw [C69_gamma_one T sizes hT hp]; exact fun b _ => (pd_WW hT b.1).det_pos.ne'
  have hv := C69_value L T sizes 1 hT hp one_ne_zero hcT
  rw [C69_gamma_one T sizes hT hp] at hv
  rw [hv]
  refine lt_of_le_of_ne (C69_bound L T M sizes 1 hT hM hp) fun h => hne ?_
  rw [C69_unique L T M sizes 1 hT hM hp one_ne_zero hc h, C69_gamma_one T sizes hT hp]

/-- C69: for `gamma ≠ 0, 1` the rule is improper as soon as some block really depends on the earlier ones: the truth scores
strictly less than the optimum. -/
theorem C69_improper (T : Matrix (Fin p) (Fin p) ℝ) (sizes : List ℕ) (gamma : ℝ) (hT : PD T) (hp : sizes.sum = p) (h0 : gamma ≠ 1)
    (b : ℕ × ℕ) (hb : b ∈ blocksFrom 0 sizes) (hr : ∃ (i : Blk p b.1 b.2) (j : Pre p b.1), T i.1 j.1 ≠ 0) :
    expectedSchurLoglik L T T sizes gamma < ((-(1 / 2) * (Real.log T.det + p) : ℝ) : WithBot ℝ) := by
  refine lt_of_le_of_ne (C69_bound L T T sizes gamma hT hT.1 hp) fun h => ?_
  rw [← opt_eq hT sizes hp] at h
  have hl := ((loglikFrom_bound L hT hT.1 gamma sizes 0).2.1 h b hb).1
  have e : effG T gamma b.1 b.2 = gamma • regression T b.1 b.2 := rfl
  rw [e] at hl
  have hz : (gamma - 1) • regression T b.1 b.2 = 0 := by rw [sub_smul, hl, one_smul, sub_self]
  have hz' : regression T b.1 b.2 = 0 := (smul_eq_zero.1 hz).resolve_left (sub_ne_zero.2 h0)
  have hn := regression_normal b.2 (pd_WW hT b.1).det_pos.ne'
  rw [hz', Matrix.zero_mul] at hn
  obtain ⟨i, j, hij⟩ := hr
  exact hij (congrFun (congrFun hn i) j).symm

/-! ## when the closed form is a covariance -/

theorem quad_schur {α β : Type} [Fintype α] [DecidableEq α] [Fintype β] [DecidableEq β] {A : Matrix α α ℝ} (hA : Symm A) (hd : A.det ≠ 0)
    (C : Matrix β α ℝ) (D : Matrix β β ℝ) (u : α → ℝ) (v : β → ℝ) :
    quad (fromBlocks A Cᵀ C D) (Sum.elim u v) = quad A (u + (A⁻¹ * Cᵀ) *ᵥ v) + quad (D - C * A⁻¹ * Cᵀ) v := by
  haveI : Invertible A := invertibleOfIsUnitDet _ (isUnit_iff_ne_zero.2 hd)
  have h := schur_complement_eq₁₁ (A := A) Cᵀ D u v (by rw [Matrix.IsHermitian, conjTranspose_eq_transpose_of_trivial, hA.transpose])
  simpa [quad, dotProduct_mulVec] using h

theorem pd_schur_iff {α β : Type} [Fintype α] [DecidableEq α] [Fintype β] [DecidableEq β] {A : Matrix α α ℝ} (hA : PD A)
    (C : Matrix β α ℝ) {D : Matrix β β ℝ} (hD : Symm D) : PD (fromBlocks A Cᵀ C D) ↔ PD (D - C * A⁻¹ * Cᵀ) := by
  have hd := hA.det_pos.ne'
  have hi : Symm (C * A⁻¹ * Cᵀ) := hA.inv.1.congr C
  constructor
  · intro h
    refine ⟨hD.sub hi, fun v hv => ?_⟩
    have := h.2 (Sum.elim (-((A⁻¹ * Cᵀ) *ᵥ v)) v) (fun h0 => hv (by ext i; simpa using congrFun h0 (Sum.inr i)))
    rw [quad_schur hA.1 hd, neg_add_cancel] at this
    simpa [quad] using this
  · intro h
    refine ⟨?_, fun x hx => ?_⟩
    · rintro (i | i) (j | j)
      · exact hA.1 i j
      · rfl
      · rfl
      · exact hD i j
    · have ex : x = Sum.elim (x ∘ Sum.inl) (x ∘ Sum.inr) := by ext (i | i) <;> rfl
      rw [ex, quad_schur hA.1 hd]
      by_cases hv : x ∘ Sum.inr = 0
      · have hu : x ∘ Sum.inl ≠ 0 := fun hu => hx (by rw [ex, hu, hv]; ext (i | i) <;> rfl)
        have := hA.2 _ hu
        rw [hv]; simpa [quad] using this
      · have h1 := h.2 _ hv
        have h2 := hA.psd.2 (x ∘ Sum.inl + (A⁻¹ * Cᵀ) *ᵥ (x ∘ Sum.inr))
        linarith

theorem pd_reindex {α β : Type} [Fintype α] [Fintype β] (e : α ≃ β) (M : Matrix β β ℝ) : PD (M.submatrix e e) ↔ PD M := by
  have hq : ∀ (M : Matrix β β ℝ) (x : α → ℝ), quad (M.submatrix e e) x = quad M (x ∘ e.symm) := by
    intro M x
    unfold quad
    rw [comp_equiv_symm_dotProduct, Matrix.submatrix_mulVec_equiv]
  constructor
  · rintro ⟨h1, h2⟩
    refine ⟨fun i j => by simpa using h1 (e.symm i) (e.symm j), fun x hx => ?_⟩
    have := h2 (x ∘ e) (fun h => hx (by funext i; simpa using congrFun h (e.symm i)))
    rw [hq] at this
    simpa [Function.comp_assoc] using this
  · rintro ⟨h1, h2⟩
    refine ⟨fun i j => h1 _ _, fun x hx => ?_⟩
    rw [hq]
    exact h2 _ fun h => hx (by funext i; simpa using congrFun h (e i))

theorem pd_cast {M : Matrix (Fin p) (Fin p) ℝ} {a b : ℕ} (h : a = b) (hM : PD (subWW M a)) : PD (subWW M b) := h ▸ hM

theorem pd_step {M : Matrix (Fin p) (Fin p) ℝ} (hM : Symm M) (a s : ℕ) (hW : PD (subWW M a)) : PD (subWW M (a + s)) ↔ PD (condCov M a s) := by
  rw [← pd_reindex (preEquiv p a s), fromBlocks_pre hM, pd_schur_iff hW _ (symm_KK hM a s), condCov_eq hM, regression_eq]

theorem pd_blocks {M : Matrix (Fin p) (Fin p) ℝ} (hM : Symm M) (rest : List ℕ) : ∀ a, PD (subWW M a) →
    ((∀ b ∈ blocksFrom a rest, PD (condCov M b.1 b.2)) → PD (subWW M (a + rest.sum)) ∧ ∀ b ∈ blocksFrom a rest, PD (subWW M b.1)) := by
  induction rest with
  | nil => intro a h _; exact ⟨pd_cast (by simp) h, by simp [blocksFrom]⟩
  | cons s rest ih =>
    intro a h hb
    have h1 := (pd_step hM a s h).2 (hb (a, s) (by simp [blocksFrom]))
    obtain ⟨h2, h3⟩ := ih (a + s) h1 fun b hb' => hb b (by simp [blocksFrom, hb'])
    refine ⟨pd_cast (by simp [add_assoc]) h2, fun b hb' => ?_⟩
    rw [blocksFrom, List.mem_cons] at hb'
    rcases hb' with rfl | hb'
    · exact h
    · exact h3 b hb'

theorem pd_pre_zero (M : Matrix (Fin p) (Fin p) ℝ) : PD (subWW M 0) := by
  haveI : IsEmpty (Pre p 0) := ⟨fun i => absurd i.2 (by omega)⟩
  exact ⟨fun i => isEmptyElim i, fun x hx => absurd (Subsingleton.elim x 0) hx⟩

theorem pd_pre_all (M : Matrix (Fin p) (Fin p) ℝ) : PD (subWW M p) ↔ PD M := by
  let e : Fin p ≃ Pre p p := ⟨fun i => ⟨i, i.2⟩, fun i => i.1, fun _ => rfl, fun _ => rfl⟩
  rw [← pd_reindex e]; rfl

theorem inflated_condCov {T M : Matrix (Fin p) (Fin p) ℝ} {g : ℝ} (hM : Symm M) {b : ℕ × ℕ} (h : Inflated T g M b)
    (hd : (subWW M b.1).det ≠ 0) :
    condCov M b.1 b.2 = condCov T b.1 b.2 + (g - 1) • ((g⁻¹ • regression T b.1 b.2) * subWW M b.1 * (g⁻¹ • regression T b.1 b.2)ᵀ) := by
  obtain ⟨h1, h2⟩ := h
  have hu := isUnit_iff_ne_zero.2 hd
  rw [condCov_eq hM, regression_eq, h2]
  have e : subKW M b.1 b.2 * (subWW M b.1)⁻¹ * (subKW M b.1 b.2)ᵀ = (g⁻¹ • regression T b.1 b.2) * subWW M b.1 * (g⁻¹ • regression T b.1 b.2)ᵀ := by
    rw [h1, transpose_mul, (symm_WW hM b.1).transpose, Matrix.mul_assoc _ (subWW M b.1) (subWW M b.1)⁻¹, mul_nonsing_inv _ hu, Matrix.mul_one,
      Matrix.mul_assoc]
  rw [e, sub_smul, one_smul]
  abel

/-- C69: the closed form is a positive-definite covariance exactly when, block by block, the true conditional covariance exceeds
the inflation `((1-gamma)/gamma²) B M_WW Bᵀ` that damping feeds back. -/
theorem C69_pd_iff (T : Matrix (Fin p) (Fin p) ℝ) (sizes : List ℕ) (gamma : ℝ) (hT : PD T) (hp : sizes.sum = p) (hg : gamma ≠ 0) :
    let M := closedFormGeneral T sizes gamma
    PD M ↔ ∀ b ∈ blocksFrom 0 sizes, PD (condCov T b.1 b.2 -
      ((1 - gamma) / gamma ^ 2) • (regression T b.1 b.2 * (Matrix.of fun i j : Pre p b.1 => M i.1 j.1) * (regression T b.1 b.2)ᵀ)) := by
  intro M
  have hM : Symm M := (closedFormGeneral_eq T gamma hT sizes hp).2
  have hI := closedForm_inflated T gamma hT sizes hp
  have hcc : ∀ b ∈ blocksFrom 0 sizes, (subWW M b.1).det ≠ 0 → condCov M b.1 b.2 = condCov T b.1 b.2 -
      ((1 - gamma) / gamma ^ 2) • (regression T b.1 b.2 * (Matrix.of fun i j : Pre p b.1 => M i.1 j.1) * (regression T b.1 b.2)ᵀ) := by
    intro b hb hd
    rw [inflated_condCov hM (hI b hb) hd]
    refine Eq.trans ?_ (sub_eq_add_neg _ _).symm
    rw [← neg_smul]
    congr 1
    simp only [transpose_smul, Matrix.smul_mul, Matrix.mul_smul, smul_smul]
    congr 1
    field_simp; ring
  constructor
  · intro h b hb
    rw [← hcc b hb (pd_WW h b.1).det_pos.ne']
    exact pd_condCov h b.1 b.2
  · intro h
    have hall : ∀ (rest : List ℕ) (a : ℕ), (∀ b ∈ blocksFrom a rest, b ∈ blocksFrom 0 sizes) → PD (subWW M a) → PD (subWW M (a + rest.sum)) := by
      intro rest
      induction rest with
      | nil => intro a _ h; exact pd_cast (by simp) h
      | cons s rest ih =>
        intro a hsub ha
        have hmem := hsub (a, s) (by simp [blocksFrom])
        have h1 : PD (subWW M (a + s)) := by
          rw [pd_step hM a s ha, hcc (a, s) hmem ha.det_pos.ne']
          exact h (a, s) hmem
        exact pd_cast (by simp [add_assoc]) (ih (a + s) (fun b hb => hsub b (by simp [blocksFrom, hb])) h1)
    rw [← pd_pre_all]
    exact pd_cast (by rw [zero_add, hp]) (hall sizes 0 (fun b hb => hb) (pd_pre_zero M))

/-- C69: over-trusting (`gamma ≥ 1`) never leaves the cone: the closed form is positive-definite for every partition, so it is the
unique maximizer. -/
theorem C69_pd_above_one (T : Matrix (Fin p) (Fin p) ℝ) (sizes : List ℕ) (gamma : ℝ) (hT : PD T) (hp : sizes.sum = p) (hg : 1 ≤ gamma) :
    PD (closedFormGeneral T sizes gamma) := by
  have hg0 : gamma ≠ 0 := by linarith
  have hM : Symm (closedFormGeneral T sizes gamma) := (closedFormGeneral_eq T gamma hT sizes hp).2
  have hI := closedForm_inflated T gamma hT sizes hp
  set M := closedFormGeneral T sizes gamma
  have hall : ∀ (rest : List ℕ) (a : ℕ), (∀ b ∈ blocksFrom a rest, b ∈ blocksFrom 0 sizes) → PD (subWW M a) → PD (subWW M (a + rest.sum)) := by
    intro rest
    induction rest with
    | nil => intro a _ h; exact pd_cast (by simp) h
    | cons s rest ih =>
      intro a hsub ha
      have hmem := hsub (a, s) (by simp [blocksFrom])
      have h1 : PD (subWW M (a + s)) := by
        rw [pd_step hM a s ha, inflated_condCov hM (hI (a, s) hmem) ha.det_pos.ne']
        exact (pd_condCov hT a s).add_psd ((ha.psd.congr _).smul (by linarith))
      exact pd_cast (by simp [add_assoc]) (ih (a + s) (fun b hb => hsub b (by simp [blocksFrom, hb])) h1)
  rw [← pd_pre_all]
  exact pd_cast (by rw [zero_add, hp]) (hall sizes 0 (fun b hb => hb) (pd_pre_zero M))

/-- C69: with two blocks the score of the closed form is always defined (only the first block, the truth's own, is inverted). -/
theorem C69_two_blocks (T : Matrix (Fin p) (Fin p) ℝ) (s1 s2 : ℕ) (gamma : ℝ) (hT : PD T) (hp : s1 + s2 = p) :
    Conditionable (closedFormGeneral T [s1, s2] gamma) [s1, s2] := by
  have hsum : [s1, s2].sum = p := by simpa using hp
  intro b hb
  simp only [blocksFrom, List.mem_cons, List.not_mem_nil, or_false, zero_add] at hb
  rcases hb with rfl | rfl
  · rw [show (Matrix.of fun i j : Pre p 0 => closedFormGeneral T [s1, s2] gamma i.1 j.1) = subWW (closedFormGeneral T [s1, s2] gamma) 0 from rfl, det_pre_zero]
    exact one_ne_zero
  · have : (Matrix.of fun i j : Pre p s1 => closedFormGeneral T [s1, s2] gamma i.1 j.1) = subWW T s1 := by
      ext i j; exact (C69_shape T [s1, s2] gamma hT hsum).2 i.1 j.1 (by simpa using i.2) (by simpa using j.2)
    show (Matrix.of fun i j : Pre p s1 => closedFormGeneral T [s1, s2] gamma i.1 j.1).det ≠ 0
    rw [this]; exact (pd_WW hT s1).det_pos.ne'

/-! ## Non-vacuity -/

/-- a coupled truth -/
def demoT : Matrix (Fin 3) (Fin 3) ℝ := !![2, 1, 0; 1, 2, 1; 0, 1, 2]

theorem demoT_pd : PD demoT := by
  refine ⟨by intro i j; fin_cases i <;> fin_cases j <;> rfl, fun x hx => ?_⟩
  have e : quad demoT x = x 0 ^ 2 + (x 0 + x 1) ^ 2 + (x 1 + x 2) ^ 2 + x 2 ^ 2 := by
    simp [quad, demoT, dotProduct, mulVec, Fin.sum_univ_three]; ring
  rw [e]
  by_contra h
  have h0 : x 0 ^ 2 = 0 := by nlinarith [sq_nonneg (x 0), sq_nonneg (x 0 + x 1), sq_nonneg (x 1 + x 2), sq_nonneg (x 2)]
  have h2 : x 2 ^ 2 = 0 := by nlinarith [sq_nonneg (x 0), sq_nonneg (x 0 + x 1), sq_nonneg (x 1 + x 2), sq_nonneg (x 2)]
  have h1 : (x 0 + x 1) ^ 2 = 0 := by nlinarith [sq_nonneg (x 0), sq_nonneg (x 0 + x 1), sq_nonneg (x 1 + x 2), sq_nonneg (x 2)]
  have a0 := pow_eq_zero_iff (two_ne_zero) |>.1 h0
  have a2 := pow_eq_zero_iff (two_ne_zero) |>.1 h2
  have a1 := pow_eq_zero_iff (two_ne_zero) |>.1 h1
  exact hx (by ext i; fin_cases i <;> simp <;> linarith)

-- two vector blocks with damping 1/2: the closed form attains the optimum, and the truth does not
example : expectedSchurLoglik L demoT (closedFormGeneral demoT [2, 1] (1/2)) [2, 1] (1/2) = ((-(1 / 2) * (Real.log demoT.det + (3:ℕ)) : ℝ) : WithBot ℝ) ∧
    expectedSchurLoglik L demoT demoT [2, 1] (1/2) < ((-(1 / 2) * (Real.log demoT.det + (3:ℕ)) : ℝ) : WithBot ℝ) :=
  ⟨C69_value L demoT [2, 1] (1/2) demoT_pd rfl (by norm_num) (C69_two_blocks demoT 2 1 (1/2) demoT_pd rfl),
   C69_improper L demoT [2, 1] (1/2) demoT_pd rfl (by norm_num) (2, 1) (by simp [blocksFrom]) ⟨⟨2, by decide⟩, ⟨1, by decide⟩, by show (1:ℝ) ≠ 0; norm_num⟩⟩
-- a chain of three with gamma = 2
example : Conditionable (closedFormGeneral demoT [1, 1, 1] 2) [1, 1, 1] := fun b _ =>
  (pd_WW (C69_pd_above_one demoT [1, 1, 1] 2 demoT_pd rfl (by norm_num)) b.1).det_pos.ne'

end Precise.Theory
