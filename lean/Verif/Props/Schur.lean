import Verif.Props.Blocks

/-!
# C31, C32: SchurLedoitWolfCovariance and SchurConditionalCovariance
-/

set_option linter.all false

open Matrix

namespace Precise

open Spec Obj

variable {p : ℕ} (L : Lapack)

/-! ## C31 -/

noncomputable def slwFold (pr : BlockParam) (xs : List (Fin p → ℝ)) : SLWState (Fin p) :=
  xs.foldl (slwUpdate pr) { toEwaState := ewaInit pr.r, piCross := 0 }

theorem slwFold_snoc (pr : BlockParam) (xs : List (Fin p → ℝ)) (x : Fin p → ℝ) :
    slwFold pr (xs ++ [x]) = slwUpdate pr (slwFold pr xs) x := by simp [slwFold]

theorem slwFold_toEwa (pr : BlockParam) (xs : List (Fin p → ℝ)) : (slwFold pr xs).toEwaState = ewaFold pr.r xs :=
  slwFold_ewa pr _ xs

theorem slwFold_burn (pr : BlockParam) (xs : List (Fin p → ℝ)) (h : xs.length ≤ ewaBurnN pr.r) : (slwFold pr xs).piCross = 0 := by
  induction xs using List.reverseRecOn with
  | nil => rfl
  | append_singleton xs x ih =>
    simp only [List.length_append, List.length_singleton] at h
    rw [slwFold_snoc]
    unfold slwUpdate
    rw [if_pos]
    · exact ih (by omega)
    · rw [slwFold_toEwa, ewaFold_n, ewaFold_nBurn]; omega

theorem slw_attrs (pr : BlockParam) (calls : List (Call (Fin p) ℝ)) (h : used pr.diff calls ≠ []) :
    slwGammaAttr L ((new (schurLWCls L p) pr).run calls) = .ok (slwGamma pr (slwFold pr (used pr.diff calls))) ∧
    ((new (schurLWCls L p) pr).run calls).covariance = .ok (toSymmetric (slwCov L pr (slwFold pr (used pr.diff calls)))) := by
  refine ⟨?_, run_covariance (schurLW_lawful L p) pr calls h⟩
  unfold slwGammaAttr
  rw [run_fittedState (schurLW_lawful L p) pr calls h]
  have := (run_new (C := schurLWCls L p) pr calls).1
  rw [this]; rfl

theorem slw_gamma_inv (pr : BlockParam) (calls : List (Call (Fin p) ℝ)) (g : ℝ)
    (h : slwGammaAttr L ((new (schurLWCls L p) pr).run calls) = .ok g) :
    used pr.diff calls ≠ [] ∧ g = slwGamma pr (slwFold pr (used pr.diff calls)) := by
  have hne : used pr.diff calls ≠ [] := by
    intro he
    have := (run_unfitted (schurLW_lawful L p) pr calls he).2
    unfold slwGammaAttr at h
    unfold Obj.location at this
    cases hf : ((new (schurLWCls L p) pr).run calls).fittedState with
    | error e => rw [hf] at h; cases h
    | ok s => rw [hf] at this; cases this
  rw [(slw_attrs L pr calls hne).1] at h
  exact ⟨hne, (Except.ok.inj h).symm⟩

/-- C31: `gamma_` is always in [0,1], and it is 1 while the observations used do not exceed the burn-in. -/
theorem C31_gamma_range (pr : BlockParam) (calls : List (Call (Fin p) ℝ)) (g : ℝ)
    (h : slwGammaAttr L ((new (schurLWCls L p) pr).run calls) = .ok g) :
    0 ≤ g ∧ g ≤ 1 ∧ ((used pr.diff calls).length ≤ ewaBurnN pr.r → g = 1) := by
  obtain ⟨hne, rfl⟩ := slw_gamma_inv L pr calls g h
  refine ⟨?_, ?_, fun hb => ?_⟩
  · unfold slwGamma; simp only []; split
    · exact le_min (le_max_right _ _) zero_le_one
    · exact zero_le_one
  · unfold slwGamma; simp only []; split
    · exact min_le_right _ _
    · exact le_rfl
  · unfold slwGamma; simp only []
    rw [slwFold_burn pr _ hb]
    simp

/-- C31: every fitted SchurLedoitWolfCovariance has a `gamma_`, and its `covariance_` is what SchurCovariance with that
damping reports on the same calls; `location_` too. -/
theorem C31_is_schur (pr : BlockParam) (calls : List (Call (Fin p) ℝ)) (c : Matrix (Fin p) (Fin p) ℝ)
    (h : ((new (schurLWCls L p) pr).run calls).covariance = .ok c) :
    PD c ∧ ∃ g, slwGammaAttr L ((new (schurLWCls L p) pr).run calls) = .ok g ∧
      ((new (schurCls L p) ⟨pr.r, pr.nBlocks, g, "linear", pr.diff⟩).run calls).covariance = .ok c ∧
      ((new (schurCls L p) ⟨pr.r, pr.nBlocks, g, "linear", pr.diff⟩).run calls).location
        = ((new (schurLWCls L p) pr).run calls).location := by
  obtain ⟨hne, -⟩ := run_covariance_inv (schurLW_lawful L p) pr calls c h
  have a := slw_attrs L pr calls hne
  rw [a.2] at h
  cases h
  have hs : Symm (slwCov L pr (slwFold pr (used pr.diff calls))) := symm_makePosDef L _ _
  refine ⟨?_, _, a.1, ?_, ?_⟩
  · rw [toSymmetric_of_symm hs]; exact pd_makePosDef L _ (by positivity)
  · rw [(schur_attrs L ⟨pr.r, pr.nBlocks, _, "linear", pr.diff⟩ calls hne).2]
    congr 2
    unfold schurCov slwCov
    simp only []
    rw [if_neg (by decide), slwFold_toEwa]
  · rw [(schur_attrs L ⟨pr.r, pr.nBlocks, _, "linear", pr.diff⟩ calls hne).1,
      run_location (schurLW_lawful L p) pr calls hne]
    congr 1
    show _ = (slwFold pr (used pr.diff calls)).mean
    rw [← slwFold_toEwa]

open Classical in
/-- Sum of the entries between different blocks (specification). -/
noncomputable def crossSum (bs : List (ℕ × ℕ)) (m : Matrix (Fin p) (Fin p) ℝ) : ℝ :=
  ∑ i : Fin p, ∑ j : Fin p, if SameBlock bs i j then 0 else m i j

theorem crossSum_eq {nb : ℕ} (hb : 1 ≤ nb) (m : Matrix (Fin p) (Fin p) ℝ) :
    crossSum (slices p nb) m = sumCross (fun i : Fin p => blockId p nb i) m := by
  unfold crossSum sumCross
  refine Finset.sum_congr rfl fun i _ => Finset.sum_congr rfl fun j _ => ?_
  simp only [sameBlock_iff p nb hb]
  by_cases h : blockId p nb i = blockId p nb j <;> simp [h]

theorem slwFold_pi (pr : BlockParam) (hp : 1 ≤ p) (hn : 1 ≤ pr.nBlocks) (burn : List (Fin p → ℝ)) (hb : burn.length = ewaBurnN pr.r)
    (y : ℕ → Fin p → ℝ) (k : ℕ) :
    (slwFold pr (burn ++ (List.range k).map y)).piCross = ∑ t ∈ Finset.range k, pr.r * (1 - pr.r) ^ (k - 1 - t) *
      crossSum (slices p (schurNb pr.nBlocks p)) (Matrix.of fun i j =>
        ((y t i - (ewaFold pr.r (burn ++ (List.range t).map y)).mean i) * (y t j - (ewaFold pr.r (burn ++ (List.range t).map y)).mean j)
          - (ewaFold pr.r (burn ++ (List.range t).map y)).cov i j) ^ 2) := by
  have hbn : 1 ≤ schurNb pr.nBlocks p := by unfold schurNb; omega
  induction k with
  | zero => simp [slwFold_burn pr burn hb.le]
  | succ k ih =>
    rw [List.range_succ, List.map_append, ← List.append_assoc, List.map_singleton, slwFold_snoc]
    have e := slwFold_toEwa pr (burn ++ (List.range k).map y)
    have hc : ¬ (slwFold pr (burn ++ (List.range k).map y)).nSamples < (slwFold pr (burn ++ (List.range k).map y)).nBurn := by
      rw [e, ewaFold_n, ewaFold_nBurn]; simp [hb]
    unfold slwUpdate
    rw [if_neg hc]
    simp only []
    rw [ih, e, ewaFold_r, Finset.sum_range_succ, Finset.mul_sum, crossSum_eq hbn]
    congr 1
    · refine Finset.sum_congr rfl fun t ht => ?_
      rw [Finset.mem_range] at ht
      rw [show k + 1 - 1 - t = (k - 1 - t) + 1 by omega, pow_succ]
      ring
    · rw [show k + 1 - 1 - k = 0 by omega, pow_zero, mul_one]; rfl

/-- C31: after the burn-in, `gamma_` is the clipped coupling reliability `1 - r·π/M`: `M` the sum of the squared
cross-block EWA covariances, `π` the exponentially weighted sum of the squared deviations of the cross-block products
of innovations from the running EWA covariance. `m t` and `S t` are what EwaCovariance reports before row `t`. -/
theorem C31_gamma_formula (pr : BlockParam) (hd : pr.diff = false) (hp : 1 ≤ p) (hn : 1 ≤ pr.nBlocks) (hr : 0 < pr.r)
    (burn : List (Fin p → ℝ)) (hb : burn.length = ewaBurnN pr.r) (y : ℕ → Fin p → ℝ) (k : ℕ)
    (m : ℕ → Fin p → ℝ) (S : ℕ → Matrix (Fin p) (Fin p) ℝ)
    (hm : ∀ t ≤ k, ((new (ewaCls (Fin p) ℝ) ⟨pr.r, false⟩).run [.partialFit (.batch (burn ++ (List.range t).map y))]).location = .ok (m t))
    (hS : ∀ t ≤ k, ((new (ewaCls (Fin p) ℝ) ⟨pr.r, false⟩).run [.partialFit (.batch (burn ++ (List.range t).map y))]).covariance = .ok (S t)) :
    let bs := slices p (schurNb pr.nBlocks p)
    let M := crossSum bs (Matrix.of fun i j => S k i j ^ 2)
    let π := ∑ t ∈ Finset.range k, pr.r * (1 - pr.r) ^ (k - 1 - t) *
      crossSum bs (Matrix.of fun i j => ((y t i - m t i) * (y t j - m t j) - S t i j) ^ 2)
    slwGammaAttr L ((new (schurLWCls L p) pr).run [.partialFit (.batch (burn ++ (List.range k).map y))])
      = .ok (if 0 < M then min (max (1 - pr.r * π / M) 0) 1 else 1) := by
  intro bs M π
  have hbn : 1 ≤ schurNb pr.nBlocks p := by unfold schurNb; omega
  have h5 := (C19_burn_length pr.r hr).2.2.1
  have hne : burn ≠ [] := by intro h; rw [h] at hb; simp at hb; omega
  have hu : ∀ t, used false [Call.partialFit (.batch (burn ++ (List.range t).map y))] = burn ++ (List.range t).map y := by
    intro t; simp [used, effective, rowsSinceFit, rowsOf]
  have hmt : ∀ t ≤ k, m t = (ewaFold pr.r (burn ++ (List.range t).map y)).mean := by
    intro t ht
    have := (ewa_attrs ⟨pr.r, false⟩ [Call.partialFit (.batch (burn ++ (List.range t).map y))] (by rw [hu]; simp [hne])).1
    rw [hm t ht, hu] at this
    exact Except.ok.inj this
  have hSt : ∀ t ≤ k, S t = (ewaFold pr.r (burn ++ (List.range t).map y)).cov := by
    intro t ht
    have := (ewa_attrs ⟨pr.r, false⟩ [Call.partialFit (.batch (burn ++ (List.range t).map y))] (by rw [hu]; simp [hne])).2
    rw [hS t ht, hu] at this
    exact Except.ok.inj this
  have hu' := hu k
  rw [← hd] at hu'
  rw [(slw_attrs L pr _ (by rw [hu']; simp [hne])).1, hu']
  have hpi : (slwFold pr (burn ++ (List.range k).map y)).piCross = π := by
    rw [slwFold_pi pr hp hn burn hb]
    refine Finset.sum_congr rfl fun t ht => ?_
    rw [Finset.mem_range] at ht
    rw [hmt t ht.le, hSt t ht.le]
  have hM : sumCross (fun i : Fin p => blockId p (schurNb pr.nBlocks p) i)
      (Matrix.of fun i j => (slwFold pr (burn ++ (List.range k).map y)).cov i j ^ 2) = M := by
    rw [← crossSum_eq hbn, slwFold_toEwa, ← hSt k le_rfl]
  have hR : (slwFold pr (burn ++ (List.range k).map y)).r = pr.r := by rw [slwFold_toEwa, ewaFold_r]
  unfold slwGamma
  simp only []
  rw [hM, hpi, hR, mul_comm π pr.r]

/-! ## C32 -/

theorem sc_attrs (pr : BlockParam) (calls : List (Call (Fin p) ℝ)) (h : used pr.diff calls ≠ []) :
    ((new (schurCondCls L p) pr).run calls).fittedState = .ok (ewaFold pr.r (used pr.diff calls)) ∧
    ((new (schurCondCls L p) pr).run calls).params = pr :=
  ⟨run_fittedState (schurCond_lawful L p) pr calls h, (run_new (C := schurCondCls L p) pr calls).1⟩

theorem sc_ok (pr : BlockParam) (calls : List (Call (Fin p) ℝ)) (s) (h : ((new (schurCondCls L p) pr).run calls).fittedState = .ok s) :
    used pr.diff calls ≠ [] ∧ s = ewaFold pr.r (used pr.diff calls) := by
  have hne : used pr.diff calls ≠ [] := by
    intro he
    have := (run_unfitted (schurCond_lawful L p) pr calls he).2
    unfold Obj.location at this
    rw [h] at this; cases this
  rw [(sc_attrs L pr calls hne).1] at h
  exact ⟨hne, (Except.ok.inj h).symm⟩

theorem sc_cov_inv (pr : BlockParam) (calls : List (Call (Fin p) ℝ)) (c : Matrix (Fin p) (Fin p) ℝ)
    (h : scCovariance? L ((new (schurCondCls L p) pr).run calls) = .ok c) :
    used pr.diff calls ≠ [] ∧ scSolvable pr (ewaFold pr.r (used pr.diff calls)) ∧
    c = toSymmetric (scCov L pr (ewaFold pr.r (used pr.diff calls))) := by
  classical
  unfold scCovariance? at h
  cases hf : ((new (schurCondCls L p) pr).run calls).fittedState with
  | error e => rw [hf] at h; cases h
  | ok s =>
    obtain ⟨hne, rfl⟩ := sc_ok L pr calls s hf
    rw [hf] at h
    simp only [] at h
    have hp := (sc_attrs L pr calls hne).2
    rw [hp] at h
    split at h
    · rename_i hs; cases h; exact ⟨hne, hs, rfl⟩
    · cases h

theorem scale_pd {a : Matrix (Fin p) (Fin p) ℝ} (h : PD a) {d : Fin p → ℝ} (hd : ∀ i, 0 < d i) :
    PD (Matrix.of fun i j => a i j * (d i * d j)) := by
  have e : (Matrix.of fun i j => a i j * (d i * d j)) = diagonal d * a * (diagonal d)ᵀ := by
    ext i j; simp [diagonal_transpose, mul_diagonal, diagonal_mul]; ring
  rw [e]
  refine h.congr_inj _ fun x hx => ?_
  ext i
  have := congrFun hx i
  simp [diagonal_transpose, mulVec_diagonal] at this
  exact this.resolve_left (hd i).ne'

theorem sc_d_pos (s : EwaState (Fin p) ℝ) (i : Fin p) : 0 < Real.sqrt (max (s.cov i i) EPS) :=
  Real.sqrt_pos.2 (lt_of_lt_of_le EPS_pos (le_max_right _ _))

theorem scCov_pd (pr : BlockParam) (s : EwaState (Fin p) ℝ) : PD (scCov L pr s) := by
  unfold scCov; simp only []
  exact scale_pd (pd_makePosDef L _ (by positivity)) (sc_d_pos s)

/-- C32: whenever `covariance_` does not raise it is symmetric positive-definite. -/
theorem C32_pd (pr : BlockParam) (calls : List (Call (Fin p) ℝ)) (c : Matrix (Fin p) (Fin p) ℝ)
    (h : scCovariance? L ((new (schurCondCls L p) pr).run calls) = .ok c) : PD c := by
  obtain ⟨-, -, rfl⟩ := sc_cov_inv L pr calls c h
  rw [toSymmetric_of_symm (scCov_pd L pr _).1]
  exact scCov_pd L pr _

theorem blockId_one (i : ℕ) (hi : i < p) : blockId p 1 i = 0 := by
  have := (blockId_mem p 1 i le_rfl hi).1; omega

/-- C32: `gamma_` is always in [0,1], and 1 when there is a single block (`n_blocks ≤ 1` or one variable). -/
theorem C32_gamma (pr : BlockParam) (calls : List (Call (Fin p) ℝ)) (g : ℝ)
    (h : scGammaAttr L ((new (schurCondCls L p) pr).run calls) = .ok g) :
    0 ≤ g ∧ g ≤ 1 ∧ (pr.nBlocks ≤ 1 ∨ p = 1 → g = 1) := by
  unfold scGammaAttr at h
  cases hf : ((new (schurCondCls L p) pr).run calls).fittedState with
  | error e => rw [hf] at h; cases h
  | ok s =>
    obtain ⟨hne, rfl⟩ := sc_ok L pr calls s hf
    rw [hf, (sc_attrs L pr calls hne).2] at h
    cases h
    unfold scGammaOf scGamma
    refine ⟨?_, ?_, fun h1 => ?_⟩
    · split
      · exact zero_le_one
      · simp only []; split
        · exact le_min (le_max_right _ _) zero_le_one
        · exact le_rfl
    · split
      · exact le_rfl
      · simp only []; split
        · exact min_le_right _ _
        · exact zero_le_one
    · rw [if_pos]
      intro i j
      have hp : 1 ≤ p := by have := i.2; omega
      have e : nbClamped pr.nBlocks p = 1 := by unfold nbClamped; omega
      rw [e]; beta_reduce; rw [blockId_one i i.2, blockId_one j j.2]

/-- the inclusion of the variables before block `k` -/
def inclPrev (p nb k : ℕ) : Matrix (Fin p) (PrevIx p nb k) ℝ := Matrix.of fun i j => if i = j.1 then 1 else 0

theorem inclPrevT_mul {nb : ℕ} {κ : Type} [Fintype κ] (k : ℕ) (a : Matrix (Fin p) κ ℝ) (i : PrevIx p nb k) (j : κ) :
    ((inclPrev p nb k)ᵀ * a) i j = a i.1 j := by
  simp [mul_apply, inclPrev]

theorem mul_inclPrev {nb : ℕ} {κ : Type} [Fintype κ] (k : ℕ) (a : Matrix κ (Fin p) ℝ) (i : κ) (j : PrevIx p nb k) :
    (a * inclPrev p nb k) i j = a i j.1 := by
  simp [mul_apply, inclPrev]

theorem mul_inclT {nb : ℕ} {κ : Type} [Fintype κ] (k : ℕ) (a : Matrix κ (BlockIx p nb k) ℝ) (i : κ) (j : Fin p) :
    (a * (incl p nb k)ᵀ) i j = if h : InBlock p nb k j then a i ⟨j, h⟩ else 0 := by
  have := incl_mul (nb := nb) k aᵀ j i
  rw [← Matrix.transpose_apply (incl p nb k * aᵀ), Matrix.transpose_mul, Matrix.transpose_transpose] at this
  rw [this]; rfl

theorem lt_start_iff {nb : ℕ} (hb : 1 ≤ nb) (i : Fin p) {k : ℕ} (hk : k < nb) :
    i.1 < ((slices p nb).getD k (0, 0)).1 ↔ blockId p nb i < k := by
  rw [slices_getD p nb k hb hk]
  have hm := blockId_mem p nb i hb i.2
  constructor
  · intro h
    by_contra hc
    have := bstart_mono p nb (show k ≤ blockId p nb i by omega)
    simp only [] at h; omega
  · intro h
    have := bstart_mono p nb (show blockId p nb i + 1 ≤ k by omega)
    simp only []; omega

/-- The reassembly step for given hedge matrix and block covariance. -/
noncomputable def stepWith {nb : ℕ} (k : ℕ) (bg : Matrix (PrevIx p nb k) (BlockIx p nb k) ℝ) (Sg : Matrix (BlockIx p nb k) (BlockIx p nb k) ℝ)
    (Rg : Matrix (Fin p) (Fin p) ℝ) : Matrix (Fin p) (Fin p) ℝ :=
  let Rprev : Matrix (PrevIx p nb k) (PrevIx p nb k) ℝ := Rg.submatrix Subtype.val Subtype.val
  let low := bgᵀ * Rprev
  let new := Sg + bgᵀ * Rprev * bg
  Matrix.of fun i j =>
    if hi : ((slices p nb).getD k (0, 0)).1 ≤ i.1 ∧ i.1 < ((slices p nb).getD k (0, 0)).2 then
      if hj : ((slices p nb).getD k (0, 0)).1 ≤ j.1 ∧ j.1 < ((slices p nb).getD k (0, 0)).2 then new ⟨i, hi⟩ ⟨j, hj⟩
      else if hj : j.1 < ((slices p nb).getD k (0, 0)).1 then low ⟨i, hi⟩ ⟨j, hj⟩ else Rg i j
    else if hj : ((slices p nb).getD k (0, 0)).1 ≤ j.1 ∧ j.1 < ((slices p nb).getD k (0, 0)).2 then
      if hi : i.1 < ((slices p nb).getD k (0, 0)).1 then low ⟨j, hj⟩ ⟨i, hi⟩ else Rg i j
    else Rg i j

/-- the hedge `b` of block `k` -/
noncomputable def scB (nb k : ℕ) (R : Matrix (Fin p) (Fin p) ℝ) (nEff : ℝ) : Matrix (PrevIx p nb k) (BlockIx p nb k) ℝ :=
  (scSystem nb k R nEff)⁻¹ * (R.submatrix Subtype.val Subtype.val : Matrix (PrevIx p nb k) (BlockIx p nb k) ℝ)

/-- the residual block `S` -/
noncomputable def scS (nb k : ℕ) (R : Matrix (Fin p) (Fin p) ℝ) (nEff : ℝ) : Matrix (BlockIx p nb k) (BlockIx p nb k) ℝ :=
  makePosDef L (toSymmetric ((R.submatrix Subtype.val Subtype.val : Matrix (BlockIx p nb k) (BlockIx p nb k) ℝ)
    - (R.submatrix Subtype.val Subtype.val : Matrix (PrevIx p nb k) (BlockIx p nb k) ℝ)ᵀ * scB nb k R nEff))

theorem scStep_stepWith (nb k : ℕ) (R Rg : Matrix (Fin p) (Fin p) ℝ) (nEff g : ℝ) :
    scStep L nb R nEff g Rg k = stepWith k (g • scB nb k R nEff)
      ((1 - g) • (R.submatrix Subtype.val Subtype.val : Matrix (BlockIx p nb k) (BlockIx p nb k) ℝ) + g • scS L nb k R nEff) Rg := rfl

/-- One reassembly step is a congruence plus the new block. -/
theorem stepWith_eq {nb : ℕ} (hb : 1 ≤ nb) (Rg : Matrix (Fin p) (Fin p) ℝ) (k : ℕ) (hk : k < nb)
    (bg : Matrix (PrevIx p nb k) (BlockIx p nb k) ℝ) (Sg : Matrix (BlockIx p nb k) (BlockIx p nb k) ℝ)
    (hs : Symm Rg) (hsup : ∀ i j : Fin p, k ≤ blockId p nb i ∨ k ≤ blockId p nb j → Rg i j = 0) :
    stepWith k bg Sg Rg
      = (1 + incl p nb k * (bgᵀ * (inclPrev p nb k)ᵀ)) * Rg * (1 + incl p nb k * (bgᵀ * (inclPrev p nb k)ᵀ))ᵀ
        + incl p nb k * Sg * (incl p nb k)ᵀ := by
  have exp : (1 + incl p nb k * (bgᵀ * (inclPrev p nb k)ᵀ)) * Rg * (1 + incl p nb k * (bgᵀ * (inclPrev p nb k)ᵀ))ᵀ
      = Rg + incl p nb k * (bgᵀ * ((inclPrev p nb k)ᵀ * Rg)) + (Rg * inclPrev p nb k * bg) * (incl p nb k)ᵀ
      + (incl p nb k * (bgᵀ * ((inclPrev p nb k)ᵀ * Rg * inclPrev p nb k) * bg)) * (incl p nb k)ᵀ := by
    simp only [Matrix.transpose_add, Matrix.transpose_mul, Matrix.transpose_one, Matrix.transpose_transpose, Matrix.add_mul, Matrix.mul_add,
      Matrix.one_mul, Matrix.mul_one, Matrix.mul_assoc]
    abel
  have hPP : (inclPrev p nb k)ᵀ * Rg * inclPrev p nb k = Rg.submatrix Subtype.val Subtype.val := by
    ext i j; rw [mul_inclPrev, inclPrevT_mul]; rfl
  rw [exp, hPP]
  have hin : ∀ i : Fin p, InBlock p nb k i ↔ blockId p nb i = k := fun i => blockId_iff p nb i k hb i.2 hk
  have hlt : ∀ i : Fin p, i.1 < ((slices p nb).getD k (0, 0)).1 ↔ blockId p nb i < k := fun i => lt_start_iff hb i hk
  have low0 : ∀ (i : BlockIx p nb k) (j : Fin p), k ≤ blockId p nb j → (bgᵀ * ((inclPrev p nb k)ᵀ * Rg)) i j = 0 := by
    intro i j hj
    rw [mul_apply]
    refine Finset.sum_eq_zero fun l _ => ?_
    rw [inclPrevT_mul, hsup _ _ (Or.inr hj), mul_zero]
  have low1 : ∀ (i : BlockIx p nb k) (j : PrevIx p nb k), (bgᵀ * ((inclPrev p nb k)ᵀ * Rg)) i j.1
      = (bgᵀ * (Rg.submatrix Subtype.val Subtype.val : Matrix (PrevIx p nb k) (PrevIx p nb k) ℝ)) i j := by
    intro i j
    rw [mul_apply, mul_apply]
    refine Finset.sum_congr rfl fun l _ => ?_
    rw [inclPrevT_mul]; rfl
  have tr : ∀ (i : Fin p) (j : BlockIx p nb k), (Rg * inclPrev p nb k * bg) i j = (bgᵀ * ((inclPrev p nb k)ᵀ * Rg)) j i := by
    intro i j
    rw [← Matrix.transpose_apply (bgᵀ * ((inclPrev p nb k)ᵀ * Rg))]
    congr 1
    simp only [Matrix.transpose_mul, Matrix.transpose_transpose, hs.transpose, Matrix.mul_assoc]
  ext i j
  rw [Matrix.add_apply, Matrix.add_apply, Matrix.add_apply, Matrix.add_apply, incl_mul, mul_inclT, mul_inclT, mul_inclT]
  unfold stepWith
  simp only [of_apply]
  by_cases hi : InBlock p nb k i
  · have ki := (hin i).1 hi
    have z : Rg i j = 0 := hsup i j (Or.inl ki.ge)
    rw [dif_pos hi, dif_pos hi, z]
    by_cases hj : InBlock p nb k j
    · have kj := (hin j).1 hj
      rw [dif_pos hj, dif_pos hj, dif_pos hj, dif_pos hj, low0 _ _ kj.ge, tr, low0 _ _ ki.ge, incl_mul, incl_mul, dif_pos hi, dif_pos hi,
        Matrix.add_apply]
      ring
    · rw [dif_neg hj, dif_neg hj, dif_neg hj, dif_neg hj]
      by_cases hj' : j.1 < ((slices p nb).getD k (0, 0)).1
      · rw [dif_pos hj', zero_add, add_zero, add_zero, add_zero]
        exact (low1 ⟨i, hi⟩ ⟨j, hj'⟩).symm
      · rw [dif_neg hj', low0 _ _ (by have := (hlt j).not.1 hj'; omega)]; simp
  · rw [dif_neg hi, dif_neg hi]
    by_cases hj : InBlock p nb k j
    · have kj := (hin j).1 hj
      have z : Rg i j = 0 := hsup i j (Or.inr kj.ge)
      rw [dif_pos hj, dif_pos hj, dif_pos hj, dif_pos hj, z, tr, incl_mul, incl_mul, dif_neg hi, dif_neg hi]
      by_cases hi' : i.1 < ((slices p nb).getD k (0, 0)).1
      · rw [dif_pos hi', zero_add, add_zero, add_zero, zero_add]
        exact (low1 ⟨j, hj⟩ ⟨i, hi'⟩).symm
      · rw [dif_neg hi', low0 _ _ (by have := (hlt i).not.1 hi'; omega)]; simp
    · rw [dif_neg hj, dif_neg hj, dif_neg hj, dif_neg hj]; simp

theorem scStep_support {nb : ℕ} (hb : 1 ≤ nb) (R Rg : Matrix (Fin p) (Fin p) ℝ) (nEff g : ℝ) (k : ℕ) (hk : k < nb)
    (hsup : ∀ i j : Fin p, k ≤ blockId p nb i ∨ k ≤ blockId p nb j → Rg i j = 0) (i j : Fin p)
    (h : k + 1 ≤ blockId p nb i ∨ k + 1 ≤ blockId p nb j) : scStep L nb R nEff g Rg k i j = 0 := by
  have hin : ∀ i : Fin p, InBlock p nb k i ↔ blockId p nb i = k := fun i => blockId_iff p nb i k hb i.2 hk
  have hlt : ∀ i : Fin p, i.1 < ((slices p nb).getD k (0, 0)).1 ↔ blockId p nb i < k := fun i => lt_start_iff hb i hk
  rw [scStep_stepWith]
  unfold stepWith
  simp only [of_apply]
  have z : Rg i j = 0 := hsup i j (by omega)
  rcases h with h | h
  · have hi : ¬ InBlock p nb k i := fun h' => by have := (hin i).1 h'; omega
    have hi' : ¬ i.1 < ((slices p nb).getD k (0, 0)).1 := fun h' => by have := (hlt i).1 h'; omega
    rw [dif_neg hi]
    split
    · exact z
    · exact z
  · have hj : ¬ InBlock p nb k j := fun h' => by have := (hin j).1 h'; omega
    have hj' : ¬ j.1 < ((slices p nb).getD k (0, 0)).1 := fun h' => by have := (hlt j).1 h'; omega
    rw [dif_neg hj]
    split
    · exact z
    · exact z

theorem psd_submatrix {ι κ : Type} [Fintype ι] [Fintype κ] [DecidableEq ι] {a : Matrix ι ι ℝ} (h : PSD a) (f : κ → ι) : PSD (a.submatrix f f) := by
  have e : a.submatrix f f = (Matrix.of fun (k : κ) (i : ι) => if f k = i then (1:ℝ) else 0) * a * (Matrix.of fun (k : κ) (i : ι) => if f k = i then (1:ℝ) else 0)ᵀ := by
    ext i j
    simp [mul_apply]
  rw [e]; exact h.congr _

theorem first_block {nb : ℕ} (hb : 1 ≤ nb) (i : Fin p) : i.1 < ((slices p nb).getD 0 (0, 0)).2 ↔ blockId p nb i = 0 := by
  have := blockId_iff p nb i 0 hb i.2 (by omega)
  rw [← this]
  rw [slices_getD p nb 0 hb (by omega)]
  simp only []
  have h0 : bstart p nb 0 = 0 := by unfold bstart; simp
  rw [h0]; omega

theorem scReassemble_inv {nb : ℕ} (hb : 1 ≤ nb) (R : Matrix (Fin p) (Fin p) ℝ) (hR : PSD R) (nEff g : ℝ) (h0 : 0 ≤ g) (h1 : g ≤ 1) :
    PSD (scReassemble L nb R nEff g) := by
  unfold scReassemble
  simp only []
  set Rg0 : Matrix (Fin p) (Fin p) ℝ := Matrix.of fun i j =>
    if i.1 < ((slices p nb).getD 0 (0, 0)).2 ∧ j.1 < ((slices p nb).getD 0 (0, 0)).2 then R i j else 0 with hRg0
  have base : PSD Rg0 ∧ ∀ i j : Fin p, 1 ≤ blockId p nb i ∨ 1 ≤ blockId p nb j → Rg0 i j = 0 := by
    constructor
    · have e : Rg0 = diagonal (fun i : Fin p => if i.1 < ((slices p nb).getD 0 (0, 0)).2 then (1:ℝ) else 0) * R
          * (diagonal (fun i : Fin p => if i.1 < ((slices p nb).getD 0 (0, 0)).2 then (1:ℝ) else 0))ᵀ := by
        ext i j
        rw [hRg0, diagonal_transpose, mul_diagonal, diagonal_mul, of_apply]
        by_cases hi : i.1 < ((slices p nb).getD 0 (0, 0)).2 <;> by_cases hj : j.1 < ((slices p nb).getD 0 (0, 0)).2 <;>
          simp only [hi, hj, and_self, and_true, and_false, if_true, if_false, one_mul, mul_one, mul_zero, zero_mul]
      rw [e]; exact hR.congr _
    · intro i j h
      rw [hRg0, of_apply, if_neg]
      rintro ⟨hi, hj⟩
      have := (first_block hb i).1 hi
      have := (first_block hb j).1 hj
      omega
  have key : ∀ m, m ≤ nb - 1 → PSD (((List.range m).map (· + 1)).foldl (scStep L nb R nEff g) Rg0) ∧
      ∀ i j : Fin p, m + 1 ≤ blockId p nb i ∨ m + 1 ≤ blockId p nb j → (((List.range m).map (· + 1)).foldl (scStep L nb R nEff g) Rg0) i j = 0 := by
    intro m
    induction m with
    | zero => intro _; exact base
    | succ m ih =>
      intro hm
      obtain ⟨ih1, ih2⟩ := ih (by omega)
      rw [List.range_succ, List.map_append, List.foldl_append]
      simp only [List.map_cons, List.map_nil, List.foldl_cons, List.foldl_nil]
      refine ⟨?_, fun i j h => scStep_support L hb R _ nEff g (m + 1) (by omega) ih2 i j h⟩
      rw [scStep_stepWith, stepWith_eq hb _ (m + 1) (by omega) _ _ ih1.1 ih2]
      refine (ih1.congr _).add (PSD.congr ?_ _)
      exact ((psd_submatrix hR _).smul (by linarith)).add ((pd_makePosDef L _ (by positivity)).psd.smul h0)
  exact (key (nb - 1) le_rfl).1

theorem scGammaOf_range (pr : BlockParam) (s : EwaState (Fin p) ℝ) : 0 ≤ scGammaOf pr s ∧ scGammaOf pr s ≤ 1 := by
  unfold scGammaOf scGamma
  split
  · exact ⟨zero_le_one, le_rfl⟩
  · simp only []; split
    · exact ⟨le_min (le_max_right _ _) zero_le_one, min_le_right _ _⟩
    · exact ⟨le_rfl, zero_le_one⟩

theorem symm_covToCorr {ι : Type} {a : Matrix ι ι ℝ} (h : Symm a) : Symm (covToCorr a) := fun i j => by
  simp only [covToCorr, of_apply, h i j, mul_comm]

theorem scSystem_pd {nb k : ℕ} {R : Matrix (Fin p) (Fin p) ℝ} (hs : Symm R) (hd : ∀ i, 0 ≤ R i i) {e : ℝ} (he : e < 1 / 10 ^ 10)
    (hR : ∀ x, -e * normSq x ≤ quad R x) (nEff : ℝ) (he0 : 0 ≤ e) : PD (scSystem nb k R nEff) := by
  unfold scSystem
  simp only []
  set ridge := min (max ((((slices p nb).getD k (0, 0)).1 : ℝ) / nEff) 0) (9 / 10) with hri
  have r0 : 0 ≤ ridge := le_min (le_max_right _ _) (by norm_num)
  have r1 : ridge ≤ 1 := (min_le_right _ _).trans (by norm_num)
  have hsub : ∀ x : PrevIx p nb k → ℝ, -e * normSq x ≤ quad (R.submatrix Subtype.val Subtype.val : Matrix (PrevIx p nb k) (PrevIx p nb k) ℝ) x := by
    intro x
    set P := inclPrev p nb k
    have e1 : (R.submatrix Subtype.val Subtype.val : Matrix (PrevIx p nb k) (PrevIx p nb k) ℝ) = Pᵀ * R * (Pᵀ)ᵀ := by
      ext i j; rw [Matrix.transpose_transpose, mul_inclPrev, inclPrevT_mul]; rfl
    have e2 : (1 : Matrix (PrevIx p nb k) (PrevIx p nb k) ℝ) = Pᵀ * (1 : Matrix (Fin p) (Fin p) ℝ) * (Pᵀ)ᵀ := by
      ext i j; rw [Matrix.transpose_transpose, mul_inclPrev, inclPrevT_mul]
      simp only [one_apply, Subtype.ext_iff]
    rw [e1, quad_congr, ← quad_one, e2, quad_congr, quad_one]
    exact hR _
  refine ⟨?_, fun x hx => ?_⟩
  · refine Symm.add (Symm.add (Symm.smul _ fun i j => hs _ _) (Symm.smul _ (symm_diagonal _))) (Symm.smul _ symm_one)
  · rw [quad_add, quad_add, quad_smul, quad_smul, quad_smul, quad_one, quad_diagonal]
    have h1 := hsub x
    have h2 := normSq_pos hx
    have h3 : 0 ≤ ∑ i : PrevIx p nb k, (R.submatrix Subtype.val Subtype.val : Matrix (PrevIx p nb k) (PrevIx p nb k) ℝ) i i * (x i * x i) :=
      Finset.sum_nonneg fun i _ => mul_nonneg (hd _) (mul_self_nonneg _)
    have h4 := mul_le_mul_of_nonneg_left h1 (show 0 ≤ 1 - ridge by linarith)
    have h5 := mul_nonneg r0 h3
    have h6 : (1 - ridge) * (e * normSq x) ≤ e * normSq x := by
      have := mul_nonneg r0 (mul_nonneg he0 h2.le); nlinarith
    have h7 := mul_lt_mul_of_pos_right he h2
    nlinarith

/-- C32: `covariance_` never raises LinAlgError when the EWA correlation matrix of the same calls is PSD. -/
theorem C32_no_error (pr : BlockParam) (calls : List (Call (Fin p) ℝ)) (R : Matrix (Fin p) (Fin p) ℝ)
    (hR : ((new (ewaCls (Fin p) ℝ) ⟨pr.r, pr.diff⟩).run calls).correlation = .ok R) (hpsd : PSD R) :
    ∃ c, scCovariance? L ((new (schurCondCls L p) pr).run calls) = .ok c := by
  classical
  have hne : used pr.diff calls ≠ [] := by
    intro he
    have := (run_unfitted (ewa_lawful _ _) (⟨pr.r, pr.diff⟩ : RParam ℝ) calls he).1
    unfold Obj.correlation at hR
    rw [this] at hR; cases hR
  have ha := (ewa_attrs (⟨pr.r, pr.diff⟩ : RParam ℝ) calls hne).2
  unfold Obj.correlation at hR
  rw [ha] at hR
  cases hR
  unfold scCovariance?
  rw [(sc_attrs L pr calls hne).1, (sc_attrs L pr calls hne).2]
  simp only []
  rw [if_pos]
  · exact ⟨_, rfl⟩
  · intro k _ _
    exact (scSystem_pd (e := 0) hpsd.1 hpsd.diag_nonneg (by norm_num) (fun x => by simpa using hpsd.2 x) _ le_rfl).det_pos.ne'

theorem corr_lower {c : Matrix (Fin p) (Fin p) ℝ} (hc : PSD c) {v : ℝ} (hv : 0 < v) (hd : ∀ i, v ≤ c i i) (x : Fin p → ℝ) :
    -((p : ℝ) * (1 / 10 ^ 12) / v) * normSq x ≤ quad (covToCorr c) x := by
  have pos : ∀ i, 0 < c i i := fun i => lt_of_lt_of_le hv (hd i)
  set T : Matrix (Fin p) (Fin p) ℝ := Matrix.of fun i j => c i j / (Real.sqrt (c i i) * Real.sqrt (c j j)) with hT
  have hTp : PSD T := by
    have e : T = diagonal (fun i => (Real.sqrt (c i i))⁻¹) * c * (diagonal (fun i => (Real.sqrt (c i i))⁻¹))ᵀ := by
      ext i j
      rw [hT, of_apply, diagonal_transpose, mul_diagonal, diagonal_mul, div_eq_mul_inv, mul_inv]; ring
    rw [e]; exact hc.congr _
  have acc : ∀ i j, |covToCorr c i j - T i j| ≤ (1 / 10 ^ 12) / v := by
    intro i j
    have := C11_accuracy c hc i j (pos i) (pos j)
    simp only [] at this
    refine this.trans (div_le_div_of_nonneg_left (by norm_num) hv ?_)
    have := Real.sqrt_le_sqrt (hd i)
    have := Real.sqrt_le_sqrt (hd j)
    calc v = Real.sqrt v * Real.sqrt v := (Real.mul_self_sqrt hv.le).symm
      _ ≤ _ := mul_le_mul (by assumption) (by assumption) (Real.sqrt_nonneg _) (Real.sqrt_nonneg _)
  have key : |quad (covToCorr c - T) x| ≤ ((p : ℝ) * (1 / 10 ^ 12) / v) * normSq x := by
    rw [quad_expand]
    calc |∑ i, ∑ j, x i * (covToCorr c - T) i j * x j| ≤ ∑ i, ∑ j, |x i| * |x j| * ((1 / 10 ^ 12) / v) := by
          refine (Finset.abs_sum_le_sum_abs _ _).trans (Finset.sum_le_sum fun i _ => (Finset.abs_sum_le_sum_abs _ _).trans (Finset.sum_le_sum fun j _ => ?_))
          rw [abs_mul, abs_mul]
          have := acc i j
          rw [Matrix.sub_apply]
          nlinarith [abs_nonneg (x i), abs_nonneg (x j), mul_nonneg (abs_nonneg (x i)) (abs_nonneg (x j))]
      _ ≤ ∑ i : Fin p, ∑ j : Fin p, ((x i * x i + x j * x j) / 2) * ((1 / 10 ^ 12) / v) := by
          refine Finset.sum_le_sum fun i _ => Finset.sum_le_sum fun j _ => mul_le_mul_of_nonneg_right ?_ (by positivity)
          nlinarith [sq_nonneg (|x i| - |x j|), abs_mul_abs_self (x i), abs_mul_abs_self (x j)]
      _ = _ := by
          simp only [← Finset.sum_mul, ← Finset.sum_div, Finset.sum_add_distrib, Finset.sum_const, Finset.card_univ, Fintype.card_fin,
            nsmul_eq_mul]
          simp only [mul_assoc]
          rw [← Finset.mul_sum]
          unfold normSq; ring
  have h1 : quad (covToCorr c) x = quad T x + quad (covToCorr c - T) x := by rw [quad_sub]; ring
  have h2 := hTp.2 x
  have h3 := abs_le.1 key
  rw [h1]; linarith [h3.1]

/-- C32: nor does it raise when every EWA variance exceeds `p/100` (for any rate in [0,1]). -/
theorem C32_no_error_scaled (pr : BlockParam) (h0 : 0 ≤ pr.r) (h1 : pr.r ≤ 1) (calls : List (Call (Fin p) ℝ)) (C : Matrix (Fin p) (Fin p) ℝ)
    (hC : ((new (ewaCls (Fin p) ℝ) ⟨pr.r, pr.diff⟩).run calls).covariance = .ok C) (hv : ∀ i, (p : ℝ) / 100 < C i i) :
    ∃ c, scCovariance? L ((new (schurCondCls L p) pr).run calls) = .ok c := by
  classical
  obtain ⟨hne, rfl⟩ := ewa_attrs_inv (⟨pr.r, pr.diff⟩ : RParam ℝ) calls C hC
  set S := ewaFold pr.r (used pr.diff calls) with hS
  have hpsd : PSD S.cov := ewaFold_psd h0 h1 _
  unfold scCovariance?
  rw [(sc_attrs L pr calls hne).1, (sc_attrs L pr calls hne).2]
  simp only []
  rw [if_pos]
  · exact ⟨_, rfl⟩
  · intro k hk1 hk
    rcases Nat.eq_zero_or_pos p with rfl | hp
    · unfold nbClamped at hk; omega
    haveI : Nonempty (Fin p) := ⟨⟨0, hp⟩⟩
    obtain ⟨i0, -, hi0⟩ := Finset.exists_min_image Finset.univ (fun i => S.cov i i) Finset.univ_nonempty
    have hpp : (0:ℝ) < p := by exact_mod_cast hp
    have hvpos : 0 < S.cov i0 i0 := lt_trans (by positivity) (hv i0)
    refine (scSystem_pd (e := (p : ℝ) * (1 / 10 ^ 12) / S.cov i0 i0) (symm_covToCorr hpsd.1) (fun i => ?_) ?_
      (fun x => corr_lower hpsd hvpos (fun i => hi0 i (Finset.mem_univ _)) x) _ (by positivity)).det_pos.ne'
    · simp only [covToCorr, of_apply]
      exact div_nonneg (hpsd.diag_nonneg i) (add_nonneg (Real.sqrt_nonneg _) EPS_pos.le)
    · rw [div_lt_iff₀ hvpos]
      have := hv i0
      nlinarith

/-- C32: with a PSD EWA correlation matrix the reassembled correlation matrix (before the eigenvalue floor) is PSD: the
floor is only a numerical guard, it raises no eigenvalue by more than 1e-8. -/
theorem C32_reassembly_psd (pr : BlockParam) (calls : List (Call (Fin p) ℝ)) (R : Matrix (Fin p) (Fin p) ℝ)
    (hR : ((new (ewaCls (Fin p) ℝ) ⟨pr.r, pr.diff⟩).run calls).correlation = .ok R) (hpsd : PSD R) :
    ∃ (c : Matrix (Fin p) (Fin p) ℝ) (d : Fin p → ℝ) (Rg : Matrix (Fin p) (Fin p) ℝ),
      scCovariance? L ((new (schurCondCls L p) pr).run calls) = .ok c ∧ (∀ i, 0 < d i) ∧ PSD Rg ∧
      Loewner (diagonal d * Rg * diagonal d) c ∧ Loewner c (diagonal d * (Rg + (1 / 10 ^ 8 : ℝ) • 1) * diagonal d) := by
  obtain ⟨c, hc⟩ := C32_no_error L pr calls R hR hpsd
  obtain ⟨hne, hsolv, rfl⟩ := sc_cov_inv L pr calls c hc
  have ha := (ewa_attrs (⟨pr.r, pr.diff⟩ : RParam ℝ) calls hne).2
  unfold Obj.correlation at hR
  rw [ha] at hR
  cases hR
  set S := ewaFold pr.r (used pr.diff calls) with hS
  set d : Fin p → ℝ := fun i => Real.sqrt (max (S.cov i i) EPS) with hd
  set Rg := scReassemble L (nbClamped pr.nBlocks p) (covToCorr S.cov) (scNEff S) (scGammaOf pr S) with hRg
  have hg := scGammaOf_range pr S
  have hRgp : PSD Rg := by
    rcases Nat.eq_zero_or_pos p with rfl | hp
    · exact ⟨fun i => i.elim0, fun x => by rw [quad_expand]; simp⟩
    · exact scReassemble_inv L (nbClamped_pos _ _ hp) _ hpsd _ _ hg.1 hg.2
  have e : scCov L pr S = diagonal d * makePosDef L Rg * (diagonal d)ᵀ := by
    ext i j
    rw [diagonal_transpose, mul_diagonal, diagonal_mul]
    unfold scCov
    simp only [of_apply]
    rw [← hRg, toSymmetric_of_symm hRgp.1]
    ring
  refine ⟨_, d, Rg, hc, sc_d_pos S, hRgp, ?_, ?_⟩
  · intro x
    rw [quad_toSymmetric, e, quad_congr]
    nth_rewrite 2 [← diagonal_transpose d]
    rw [quad_congr]
    exact C50_loewner L Rg _ _
  · intro x
    rw [quad_toSymmetric, e, quad_congr]
    nth_rewrite 3 [← diagonal_transpose d]
    rw [quad_congr]
    set y := (diagonal d)ᵀ *ᵥ x
    have ho := L.eigh_orth Rg hRgp.1
    have hs := L.eigh_spec hRgp.1
    rw [makePosDef_of_spec L ho (by rw [toSymmetric_of_symm hRgp.1]; exact hs), quad_add, quad_smul, quad_one, quad_spec]
    nth_rewrite 4 [hs]
    rw [quad_spec, ← normSq_orth ho, normSq, Finset.mul_sum, ← Finset.sum_add_distrib]
    refine Finset.sum_le_sum fun i _ => ?_
    rw [← add_mul]
    refine mul_le_mul_of_nonneg_right ?_ (mul_self_nonneg _)
    have := eigs_nonneg ho (w := (L.eigh Rg).1) (by rw [← hs]; exact hRgp) i
    exact max_le (by linarith [show (0:ℝ) < 1 / 10 ^ 8 by positivity]) (by linarith)

theorem scReassemble_zero {nb : ℕ} (hb : 1 ≤ nb) (R : Matrix (Fin p) (Fin p) ℝ) (nEff : ℝ) :
    scReassemble L nb R nEff 0 = blockDiag p nb R := by
  unfold scReassemble
  simp only []
  have key : ∀ m, m ≤ nb - 1 → ((List.range m).map (· + 1)).foldl (scStep L nb R nEff 0) (Matrix.of fun i j : Fin p =>
      if i.1 < ((slices p nb).getD 0 (0, 0)).2 ∧ j.1 < ((slices p nb).getD 0 (0, 0)).2 then R i j else 0)
      = (Matrix.of fun i j : Fin p => if blockId p nb i = blockId p nb j ∧ blockId p nb i ≤ m then R i j else 0) := by
    intro m
    induction m with
    | zero =>
      intro _
      ext i j
      simp only [List.range_zero, List.map_nil, List.foldl_nil, of_apply]
      congr 1
      rw [eq_iff_iff]
      constructor
      · rintro ⟨a, b⟩
        have := (first_block hb i).1 a
        have := (first_block hb j).1 b
        omega
      · rintro ⟨a, b⟩
        exact ⟨(first_block hb i).2 (by omega), (first_block hb j).2 (by omega)⟩
    | succ m ih =>
      intro hm
      rw [List.range_succ, List.map_append, List.foldl_append, ih (by omega)]
      simp only [List.map_cons, List.map_nil, List.foldl_cons, List.foldl_nil]
      have hin : ∀ i : Fin p, InBlock p nb (m + 1) i ↔ blockId p nb i = m + 1 := fun i => blockId_iff p nb i (m + 1) hb i.2 (by omega)
      have hlt : ∀ i : Fin p, i.1 < ((slices p nb).getD (m + 1) (0, 0)).1 ↔ blockId p nb i < m + 1 := fun i => lt_start_iff hb i (by omega)
      rw [scStep_stepWith, zero_smul, zero_smul, sub_zero, one_smul, add_zero]
      ext i j
      unfold stepWith
      simp only [Matrix.transpose_zero, Matrix.zero_mul, add_zero, of_apply, Matrix.zero_apply]
      by_cases hi : InBlock p nb (m + 1) i
      · have ki := (hin i).1 hi
        rw [dif_pos hi]
        by_cases hj : InBlock p nb (m + 1) j
        · have kj := (hin j).1 hj
          rw [dif_pos hj, if_pos (by omega)]; rfl
        · have kj := (hin j).not.1 hj
          rw [dif_neg hj, if_neg (show ¬ (blockId p nb i = blockId p nb j ∧ blockId p nb i ≤ m + 1) by omega)]
          split
          · rfl
          · rw [if_neg (by omega)]
      · have ki := (hin i).not.1 hi
        rw [dif_neg hi]
        by_cases hj : InBlock p nb (m + 1) j
        · have kj := (hin j).1 hj
          rw [dif_pos hj, if_neg (show ¬ (blockId p nb i = blockId p nb j ∧ blockId p nb i ≤ m + 1) by omega)]
          split
          · rfl
          · rw [if_neg (by omega)]
        · have kj := (hin j).not.1 hj
          rw [dif_neg hj]
          congr 1
          rw [eq_iff_iff]; omega
  rw [key (nb - 1) le_rfl]
  ext i j
  simp only [of_apply, blockDiag]
  have := (blockId_mem p nb i hb i.2).1
  by_cases h : blockId p nb i = blockId p nb j
  · rw [if_pos ⟨h, by omega⟩, if_neg (by simpa using h)]
  · rw [if_neg (by tauto), if_pos (by simpa using h)]

/-- C32: when the estimated damping is 0, `covariance_` is zero between different blocks. -/
theorem C32_gamma_zero (pr : BlockParam) (calls : List (Call (Fin p) ℝ)) (c : Matrix (Fin p) (Fin p) ℝ)
    (h : scCovariance? L ((new (schurCondCls L p) pr).run calls) = .ok c)
    (hg : scGammaAttr L ((new (schurCondCls L p) pr).run calls) = .ok 0) (i j : Fin p)
    (hij : ¬ SameBlock (slices p (nbClamped pr.nBlocks p)) i j) : c i j = 0 := by
  obtain ⟨hne, hsolv, rfl⟩ := sc_cov_inv L pr calls c h
  have hb : 1 ≤ nbClamped pr.nBlocks p := nbClamped_pos _ _ (by have := i.2; omega)
  unfold scGammaAttr at hg
  rw [(sc_attrs L pr calls hne).1, (sc_attrs L pr calls hne).2] at hg
  have hg' : scGammaOf pr (ewaFold pr.r (used pr.diff calls)) = 0 := Except.ok.inj hg
  rw [toSymmetric_of_symm (scCov_pd L pr _).1]
  unfold scCov
  simp only []
  have hs := symm_covToCorr (symm_ewaFold pr.r (used pr.diff calls))
  rw [hg', scReassemble_zero L hb, toSymmetric_of_symm (blockDiag_symm hs), makePosDef_blockDiag L hb hs, of_apply]
  rw [blockAssemble_out hb, zero_mul]
  rintro k ⟨hi, hj⟩
  apply hij
  rw [sameBlock_iff p _ hb]
  rw [(blockId_iff p _ i k hb i.2 k.2).1 hi, (blockId_iff p _ j k hb j.2 k.2).1 hj]

/-- C32: with a single block, if no floor applies (EWA variances at least 1e-12, EWA correlation eigenvalues at least
1e-8), `covariance_` is the EWA covariance up to 1e-12 in every entry: it equals `C_ij s/(s + 1e-12)` with
`s = sqrt(C_ii C_jj)`, so it is not exactly the EWA covariance. -/
theorem C32_single_block (pr : BlockParam) (h0 : 0 ≤ pr.r) (h1 : pr.r ≤ 1) (hnb : pr.nBlocks ≤ 1) (calls : List (Call (Fin p) ℝ))
    (C R : Matrix (Fin p) (Fin p) ℝ)
    (hC : ((new (ewaCls (Fin p) ℝ) ⟨pr.r, pr.diff⟩).run calls).covariance = .ok C)
    (hR : ((new (ewaCls (Fin p) ℝ) ⟨pr.r, pr.diff⟩).run calls).correlation = .ok R)
    (hv : ∀ i, 1 / 10 ^ 12 ≤ C i i) (hmin : MinEigGE R (1 / 10 ^ 8)) :
    ∃ c, scCovariance? L ((new (schurCondCls L p) pr).run calls) = .ok c ∧
      ∀ i j, c i j = C i j * (Real.sqrt (C i i * C j j) / (Real.sqrt (C i i * C j j) + 1 / 10 ^ 12)) ∧
        |c i j - C i j| < 1 / 10 ^ 12 ∧ c i i < C i i := by
  obtain ⟨hne, hCe⟩ := ewa_attrs_inv (⟨pr.r, pr.diff⟩ : RParam ℝ) calls C hC
  have hpsd : PSD C := by rw [hCe]; exact ewaFold_psd h0 h1 _
  have hRe : R = covToCorr C := by
    unfold Obj.correlation at hR; rw [hC] at hR; exact (Except.ok.inj hR).symm
  have hRs : Symm R := by rw [hRe]; exact symm_covToCorr hpsd.1
  have hRpd : PD R := hmin.pd hRs (by positivity)
  obtain ⟨c, hc⟩ := C32_no_error L pr calls R hR hRpd.psd
  refine ⟨c, hc, ?_⟩
  obtain ⟨-, -, rfl⟩ := sc_cov_inv L pr calls c hc
  intro i j
  have hp : 1 ≤ p := by have := i.2; omega
  have hb : nbClamped pr.nBlocks p = 1 := by unfold nbClamped; omega
  set S := ewaFold pr.r (used pr.diff calls) with hS
  have hCe' : S.cov = C := hCe.symm
  have e : scReassemble L 1 R (scNEff S) (scGammaOf pr S) = R := by
    unfold scReassemble
    simp only [Nat.sub_self, List.range_zero, List.map_nil, List.foldl_nil]
    ext a b
    rw [of_apply, if_pos]
    exact ⟨(first_block le_rfl a).2 (blockId_one a a.2), (first_block le_rfl b).2 (blockId_one b b.2)⟩
  have ent : ∀ i j, (toSymmetric (scCov L pr S)) i j = C i j * (Real.sqrt (C i i * C j j) / (Real.sqrt (C i i * C j j) + 1 / 10 ^ 12)) := by
    intro i j
    rw [toSymmetric_of_symm (scCov_pd L pr _).1]
    unfold scCov
    simp only [of_apply]
    rw [hb, hCe', ← hRe, e, toSymmetric_of_symm hRs, makePosDef_id L hmin, toSymmetric_of_symm hRs, hRe]
    simp only [covToCorr, of_apply, EPS]
    rw [max_eq_left (hv i), max_eq_left (hv j), ← Real.sqrt_mul (hpsd.diag_nonneg i), mul_comm (C j j)]
    ring
  have hs : ∀ i j, 0 < Real.sqrt (C i i * C j j) := fun i j => Real.sqrt_pos.2 (by
    have := hv i; have := hv j
    exact mul_pos (by linarith [show (0:ℝ) < 1 / 10 ^ 12 by positivity]) (by linarith [show (0:ℝ) < 1 / 10 ^ 12 by positivity]))
  have he : (0:ℝ) < 1 / 10 ^ 12 := by positivity
  have sub : ∀ i j, (toSymmetric (scCov L pr S)) i j - C i j = -(C i j * ((1 / 10 ^ 12) / (Real.sqrt (C i i * C j j) + 1 / 10 ^ 12))) := by
    intro i j
    rw [ent]
    have := hs i j
    field_simp
    ring
  refine ⟨ent i j, ?_, ?_⟩
  · rw [sub, abs_neg, abs_mul, abs_of_nonneg (a := _ / _) (by have := hs i j; positivity)]
    have hle : |C i j| ≤ Real.sqrt (C i i * C j j) := Real.abs_le_sqrt (by rw [sq]; exact hpsd.entry_sq_le i j)
    have := hs i j
    rw [mul_div_assoc', div_lt_iff₀ (by positivity)]
    nlinarith
  · have := sub i i
    have h2 : 0 < C i i * ((1 / 10 ^ 12) / (Real.sqrt (C i i * C i i) + 1 / 10 ^ 12)) := by
      have := hs i i
      have := hv i
      exact mul_pos (by linarith) (by positivity)
    linarith

/-- The matrix of the regression of a block starting at variable `a` on the variables before it: the correlation matrix of those
variables with the off-diagonal entries shrunk by `min (a/n) 0.9` and 1e-10 added to the diagonal. -/
noncomputable def hedgeMatrix (R : Matrix (Fin p) (Fin p) ℝ) (n : ℝ) (a : ℕ) : Matrix {i : Fin p // i.1 < a} {i : Fin p // i.1 < a} ℝ :=
  Matrix.of fun i j => if i = j then R i i + 1 / 10 ^ 10 else (1 - min ((a : ℝ) / n) (9 / 10)) * R i j

theorem scSystem_eq (nb k : ℕ) (R : Matrix (Fin p) (Fin p) ℝ) (n : ℝ) (hn : 0 < n) :
    scSystem nb k R n = hedgeMatrix R n ((slices p nb).getD k (0, 0)).1 := by
  ext i j
  unfold scSystem hedgeMatrix
  have h0 : max (((((slices p nb).getD k (0, 0)).1 : ℕ) : ℝ) / n) 0 = (((slices p nb).getD k (0, 0)).1 : ℝ) / n := max_eq_left (by positivity)
  simp only [h0, Matrix.add_apply, Matrix.smul_apply, Matrix.submatrix_apply, Matrix.of_apply, smul_eq_mul]
  by_cases hij : i = j
  · subst hij
    rw [if_pos rfl, diagonal_apply_eq, one_apply_eq]; ring
  · rw [if_neg hij, diagonal_apply_ne _ hij, one_apply_ne hij]; ring

/-- C32: after any fitting calls, `covariance_` raises LinAlgError exactly when, for some block after the first, the matrix of its
regression on the variables before it is singular; otherwise it is returned. -/
theorem C32_error_iff (hp : 1 ≤ p) (pr : BlockParam) (calls : List (Call (Fin p) ℝ)) (R : Matrix (Fin p) (Fin p) ℝ)
    (hR : ((new (ewaCls (Fin p) ℝ) ⟨pr.r, pr.diff⟩).run calls).correlation = .ok R) :
    let n : ℝ := max 2 (min ((used pr.diff calls).length : ℝ) ((2 - pr.r) / pr.r))
    (scCovariance? L ((new (schurCondCls L p) pr).run calls) = .error .linAlgError ↔
      ∃ b ∈ (slices p (nbClamped pr.nBlocks p)).tail, (hedgeMatrix R n b.1).det = 0) ∧
    ((∃ c, scCovariance? L ((new (schurCondCls L p) pr).run calls) = .ok c) ↔
      ∀ b ∈ (slices p (nbClamped pr.nBlocks p)).tail, (hedgeMatrix R n b.1).det ≠ 0) := by
  classical
  intro n
  have hb : 1 ≤ nbClamped pr.nBlocks p := nbClamped_pos _ _ hp
  have hne : used pr.diff calls ≠ [] := by
    intro he
    have := (run_unfitted (ewa_lawful _ _) (⟨pr.r, pr.diff⟩ : RParam ℝ) calls he).1
    unfold Obj.correlation at hR
    rw [this] at hR; cases hR
  have ha := (ewa_attrs (⟨pr.r, pr.diff⟩ : RParam ℝ) calls hne).2
  unfold Obj.correlation at hR
  rw [ha] at hR
  have hRe : covToCorr (ewaFold pr.r (used pr.diff calls)).cov = R := Except.ok.inj hR
  have hn' : scNEff (ewaFold pr.r (used pr.diff calls)) = n := by
    unfold scNEff; rw [ewaFold_n, ewaFold_r]
  have npos : 0 < n := lt_of_lt_of_le two_pos (le_max_left _ _)
  have key : scSolvable pr (ewaFold pr.r (used pr.diff calls)) ↔
      ∀ b ∈ (slices p (nbClamped pr.nBlocks p)).tail, (hedgeMatrix R n b.1).det ≠ 0 := by
    unfold scSolvable
    rw [hRe, hn']
    have hl := slices_length p _ hb
    constructor
    · intro h b hbm
      obtain ⟨k, hk, rfl⟩ := List.getElem_of_mem hbm
      rw [List.length_tail, hl] at hk
      have := h (k + 1) (by omega) (by omega)
      rw [scSystem_eq _ _ _ _ npos] at this
      rw [List.getElem_tail]
      have e : (slices p (nbClamped pr.nBlocks p)).getD (k + 1) (0, 0) = (slices p (nbClamped pr.nBlocks p))[k + 1]'(by rw [hl]; omega) := by
        rw [List.getD_eq_getElem?_getD, List.getElem?_eq_getElem (by rw [hl]; omega), Option.getD_some]
      rw [← e]; exact this
    · intro h k h1 h2
      rw [scSystem_eq _ _ _ _ npos]
      refine h _ ?_
      rw [List.getD_eq_getElem?_getD, List.getElem?_eq_getElem (by rw [hl]; exact h2), Option.getD_some]
      refine List.mem_iff_getElem.2 ⟨k - 1, by rw [List.length_tail, hl]; omega, ?_⟩
      rw [List.getElem_tail]
      congr 1; omega
  unfold scCovariance?
  rw [(sc_attrs L pr calls hne).1, (sc_attrs L pr calls hne).2]
  simp only []
  rw [← key]
  by_cases hs : scSolvable pr (ewaFold pr.r (used pr.diff calls))
  · rw [if_pos hs]
    refine ⟨⟨(fun h => by cases h), (fun ⟨b, h1, h2⟩ => absurd h2 (key.1 hs b h1))⟩, ⟨fun _ => hs, fun _ => ⟨_, rfl⟩⟩⟩
  · rw [if_neg hs]
    refine ⟨⟨fun _ => ?_, fun _ => rfl⟩, ⟨(fun ⟨c, h⟩ => by cases h), fun h => absurd h hs⟩⟩
    by_contra hc
    push Not at hc
    exact hs (key.2 hc)

/-- C32: with at least two blocks, `gamma_` is the share of the squared cross-block correlation that exceeds its sampling
noise `(1+ρ²)/n_eff`, with `n_eff = max 2 (min n ((2-r)/r))`; it is 0 when all cross-block correlations vanish. -/
theorem C32_gamma_formula (pr : BlockParam) (hn : 2 ≤ pr.nBlocks) (hp : 2 ≤ p) (calls : List (Call (Fin p) ℝ))
    (R : Matrix (Fin p) (Fin p) ℝ)
    (hR : ((new (ewaCls (Fin p) ℝ) ⟨pr.r, pr.diff⟩).run calls).correlation = .ok R) :
    let bs := slices p (nbClamped pr.nBlocks p)
    let n : ℝ := max 2 (min ((used pr.diff calls).length : ℝ) ((2 - pr.r) / pr.r))
    let num := crossSum bs (Matrix.of fun i j => max (R i j ^ 2 - (1 + R i j ^ 2) / n) 0)
    let den := crossSum bs (Matrix.of fun i j => R i j ^ 2)
    scGammaAttr L ((new (schurCondCls L p) pr).run calls) = .ok (num / den) := by
  intro bs n num den
  have hb : 1 ≤ nbClamped pr.nBlocks p := nbClamped_pos _ _ (by omega)
  have hne : used pr.diff calls ≠ [] := by
    intro he
    have := (run_unfitted (ewa_lawful _ _) (⟨pr.r, pr.diff⟩ : RParam ℝ) calls he).1
    unfold Obj.correlation at hR
    rw [this] at hR; cases hR
  have ha := (ewa_attrs (⟨pr.r, pr.diff⟩ : RParam ℝ) calls hne).2
  unfold Obj.correlation at hR
  rw [ha] at hR
  have hRe : covToCorr (ewaFold pr.r (used pr.diff calls)).cov = R := Except.ok.inj hR
  unfold scGammaAttr
  rw [(sc_attrs L pr calls hne).1, (sc_attrs L pr calls hne).2]
  show Except.ok _ = _
  congr 1
  unfold scGammaOf
  rw [hRe]
  have hn' : scNEff (ewaFold pr.r (used pr.diff calls)) = n := by
    unfold scNEff; rw [ewaFold_n, ewaFold_r]
  rw [hn']
  unfold scGamma
  have hcross : ¬ ∀ i j : Fin p, blockId p (nbClamped pr.nBlocks p) i = blockId p (nbClamped pr.nBlocks p) j := by
    intro hall
    have hnb2 : 2 ≤ nbClamped pr.nBlocks p := by unfold nbClamped; omega
    have hnbp : nbClamped pr.nBlocks p ≤ p := by unfold nbClamped; omega
    have hA := (first_block (p := p) hb ⟨p - 1, by omega⟩).2 (by
      rw [hall ⟨p - 1, by omega⟩ ⟨0, by omega⟩]
      refine (first_block hb (⟨0, by omega⟩ : Fin p)).1 ?_
      rw [slices_getD p _ 0 hb (by omega)]
      have h1 := bstart_lt p _ 0 hb hnbp
      have h1' := bstart_zero p (nbClamped pr.nBlocks p)
      simp only []; omega)
    rw [slices_getD p _ 0 hb (by omega)] at hA
    have h1 : bstart p (nbClamped pr.nBlocks p) 1 < bstart p (nbClamped pr.nBlocks p) 2 := bstart_lt p _ 1 hb hnbp
    have h2 := bstart_mono p (nbClamped pr.nBlocks p) hnb2
    have h3 := bstart_last p (nbClamped pr.nBlocks p) hb
    have h4 := bstart_mono p (nbClamped pr.nBlocks p) (show 2 ≤ nbClamped pr.nBlocks p from hnb2)
    simp only [zero_add] at hA
    omega
  rw [if_neg hcross]
  simp only []
  rw [← crossSum_eq hb, ← crossSum_eq hb]
  have npos : 0 < n := lt_of_lt_of_le two_pos (le_max_left _ _)
  have hnum : 0 ≤ num := by
    refine Finset.sum_nonneg fun i _ => Finset.sum_nonneg fun j _ => ?_
    split
    · exact le_rfl
    · exact le_max_right _ _
  have hden : num ≤ den := by
    refine Finset.sum_le_sum fun i _ => Finset.sum_le_sum fun j _ => ?_
    split
    · exact le_rfl
    · refine max_le ?_ (sq_nonneg _)
      have : 0 ≤ (1 + R i j ^ 2) / n := by positivity
      show _ ≤ R i j ^ 2
      linarith
  show (if 0 < den then min (max (num / den) 0) 1 else 0) = num / den
  split
  · rename_i h
    rw [max_eq_left (div_nonneg hnum h.le), min_eq_left ((div_le_one h).2 hden)]
  · rename_i h
    have : den = 0 := le_antisymm (not_lt.1 h) (hnum.trans hden)
    rw [this, div_zero]

section Examples

/-! ### The hypotheses are met: four rows with covariance `[[2,1],[1,1]]` -/

/-- four observations of two variables -/
def demoRows : List (Fin 2 → ℝ) := [![2, 1], ![-2, -1], ![0, 1], ![0, -1]]

theorem demo_cov (r : ℝ) (hr : 0 < r) : (ewaFold r demoRows).cov = !![2, 1; 1, 1] := by
  rw [ewaFold_burn r demoRows (by have := (C19_burn_length r hr).2.2.1; simp [demoRows]; omega), empFold_cov (by simp [demoRows])]
  ext i j
  fin_cases i <;> fin_cases j <;> simp [covOf, meanOf, demoRows] <;> norm_num

theorem demo_used : used false [Call.partialFit (.batch demoRows)] = demoRows := by
  simp [used, effective, rowsSinceFit, rowsOf]

theorem demo_attrs (r : ℝ) (hr : 0 < r) :
    ((new (ewaCls (Fin 2) ℝ) ⟨r, false⟩).run [.partialFit (.batch demoRows)]).covariance = .ok !![2, 1; 1, 1] := by
  rw [(ewa_attrs (⟨r, false⟩ : RParam ℝ) [.partialFit (.batch demoRows)] (by show used false _ ≠ []; rw [demo_used]; simp [demoRows])).2]
  show Except.ok (ewaFold r (used false _)).cov = _
  rw [demo_used, demo_cov r hr]

theorem demo_minEig : MinEigGE (!![2, 1; 1, 1] : Matrix (Fin 2) (Fin 2) ℝ) (1 / 10 ^ 8) := by
  intro x
  rw [quad_expand]
  simp only [normSq, Fin.sum_univ_two]
  simp
  nlinarith [sq_nonneg (x 0 * 4 + x 1 * 3), sq_nonneg (x 0), sq_nonneg (x 1), sq_nonneg (x 0 + x 1)]

-- C30: gamma = 1 reproduces the EWA covariance here, gamma = 1/2 halves the cross entry
example : ((new (schurCls L 2) ⟨1/20, 2, 1, "linear", false⟩).run [.partialFit (.batch demoRows)]).covariance
    = .ok !![2, 1; 1, 1] :=
  (C30_gamma_one L ⟨1/20, 2, 1, "linear", false⟩ rfl _ _ (demo_attrs (1/20) (by norm_num))).2 demo_minEig
example := (C30_linear L ⟨1/20, 2, 1/2, "linear", false⟩ (by decide) (by norm_num) (by norm_num) _ _ (demo_attrs (1/20) (by norm_num))).2.2
  (by norm_num) (by norm_num) demo_minEig

-- C25: five variables in two blocks
example : slices 5 2 = [(0, 3), (3, 5)] := by decide
example := C25_partition 5 2 (by norm_num) (by norm_num)

-- C32: the variances 2 and 1 exceed 2/100, so `covariance_` does not raise; two blocks
theorem demo_sc : ∃ c, scCovariance? L ((new (schurCondCls L 2) ⟨1/20, 2, false⟩).run [.partialFit (.batch demoRows)]) = .ok c :=
  C32_no_error_scaled L ⟨1/20, 2, false⟩ (by norm_num) (by norm_num) _ _ (demo_attrs (1/20) (by norm_num)) (by
    intro i; fin_cases i <;> simp <;> norm_num)

-- C32_single_block: EWA correlation of the demo data has eigenvalues above 1e-8
example : ∃ c, scCovariance? L ((new (schurCondCls L 2) ⟨1/20, 1, false⟩).run [.partialFit (.batch demoRows)]) = .ok c ∧ c 0 0 < 2 := by
  obtain ⟨c, hc, h⟩ := C32_single_block L ⟨1/20, 1, false⟩ (by norm_num) (by norm_num) (by norm_num) _ _ _ (demo_attrs (1/20) (by norm_num))
    (by unfold Obj.correlation; rw [demo_attrs (1/20) (by norm_num)]; rfl) (by intro i; fin_cases i <;> simp <;> norm_num)
    (by
      have hx : ∀ x : Fin 2 → ℝ, 1 / 10 ^ 8 * normSq x ≤ quad (covToCorr !![2, 1; 1, 1]) x := by
        intro x
        have hp : PSD (!![2, 1; 1, 1] : Matrix (Fin 2) (Fin 2) ℝ) := (demo_minEig.pd (by intro i j; fin_cases i <;> fin_cases j <;> rfl) (by positivity)).psd
        have s2 : (1.4:ℝ) ≤ Real.sqrt 2 := Real.le_sqrt_of_sq_le (by norm_num)
        have a := Real.sqrt_nonneg (2:ℝ)
        have e : quad (covToCorr !![2, 1; 1, 1]) x = x 0 * x 0 * (2 / (2 + EPS)) + 2 * (x 0 * x 1) * (1 / (Real.sqrt 2 + EPS)) + x 1 * x 1 * (1 / (1 + EPS)) := by
          rw [quad_expand]
          simp only [Fin.sum_univ_two, covToCorr, of_apply]
          simp
          ring
        have hE := EPS_pos
        have hE' : EPS ≤ 1 / 100 := by unfold EPS; norm_num
        have b1 : (99:ℝ)/100 ≤ 2 / (2 + EPS) := by rw [div_le_div_iff₀ (by norm_num) (by linarith)]; nlinarith
        have b2 : (99:ℝ)/100 ≤ 1 / (1 + EPS) := by rw [div_le_div_iff₀ (by norm_num) (by linarith)]; nlinarith
        have b3 : 1 / (Real.sqrt 2 + EPS) ≤ 72/100 := by rw [div_le_div_iff₀ (by linarith) (by norm_num)]; nlinarith
        have b4 : 0 ≤ 1 / (Real.sqrt 2 + EPS) := by positivity
        rw [e]
        simp only [normSq, Fin.sum_univ_two]
        set u := 1 / (Real.sqrt 2 + EPS)
        nlinarith [mul_self_nonneg (x 0), mul_self_nonneg (x 1), mul_nonneg b4 (mul_self_nonneg (x 0 + x 1)),
          mul_le_mul_of_nonneg_left b1 (mul_self_nonneg (x 0)), mul_le_mul_of_nonneg_left b2 (mul_self_nonneg (x 1)),
          mul_le_mul_of_nonneg_left b3 (mul_self_nonneg (x 0)), mul_le_mul_of_nonneg_left b3 (mul_self_nonneg (x 1))]
      exact hx)
  exact ⟨c, hc, (h 0 0).2.2⟩

-- C31: 20 burn-in rows at r = 1/20, then further rows
example := C31_gamma_range L ⟨1/20, 2, false⟩ [.partialFit (.batch demoRows)] _
  (slw_attrs L ⟨1/20, 2, false⟩ _ (by show used false _ ≠ []; rw [demo_used]; simp [demoRows])).1

end Examples

end Precise
