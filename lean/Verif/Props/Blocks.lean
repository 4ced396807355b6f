import Verif.Lemmas.BlockMat
import Verif.Spec.Blocks
import Verif.Props.Linalg

/-!
# C25, C26, C30, C31, C32: the block-structured estimators
-/

set_option linter.all false

open Matrix

namespace Precise

open Spec Obj

/-! ## C25 the partition -/

theorem slices_take_flatMap (p nb k : ℕ) (h : 1 ≤ nb) (hk : k ≤ nb) :
    (((slices p nb).take k).flatMap fun b => List.range' b.1 (b.2 - b.1)) = List.range (bstart p nb k) := by
  induction k with
  | zero => simp [bstart_zero]
  | succ k ih =>
    have hl : k < (slices p nb).length := by rw [slices_length p nb h]; omega
    rw [List.take_succ_eq_append_getElem hl, List.flatMap_append, ih (by omega), slices_get p nb k h]
    have hm := bstart_mono p nb (show k ≤ k + 1 by omega)
    simp only [List.flatMap_cons, List.flatMap_nil, List.append_nil]
    rw [List.range_eq_range', List.range_eq_range']
    have e : bstart p nb (k + 1) = bstart p nb k + (bstart p nb (k + 1) - bstart p nb k) := by omega
    conv_rhs => rw [e]
    rw [← List.range'_append]
    simp

/-- C25: for `1 ≤ nb ≤ p` the ranges of `np.array_split(np.arange(p), nb)` are an even partition into `nb` contiguous
blocks, and the per-variable block number is the index of the range containing the variable. -/
theorem C25_partition (p nb : ℕ) (h : 1 ≤ nb) (hp : nb ≤ p) :
    EvenPartition p (slices p nb) ∧ (slices p nb).length = nb ∧
    ∀ i < p, ∃ b, (slices p nb)[blockId p nb i]? = some b ∧ b.1 ≤ i ∧ i < b.2 := by
  have mem : ∀ b ∈ slices p nb, ∃ k < nb, b = (bstart p nb k, bstart p nb (k + 1)) := by
    intro b hb
    obtain ⟨k, hk, rfl⟩ := List.getElem_of_mem hb
    exact ⟨k, by rwa [slices_length p nb h] at hk, slices_get p nb k h hk⟩
  refine ⟨⟨?_, ?_, ?_⟩, slices_length p nb h, ?_⟩
  · intro b hb
    obtain ⟨k, hk, rfl⟩ := mem b hb
    exact bstart_lt p nb k h hp
  · have := slices_take_flatMap p nb nb h le_rfl
    rwa [bstart_last p nb h, List.take_of_length_le (by rw [slices_length p nb h])] at this
  · intro b hb b' hb'
    obtain ⟨k, hk, rfl⟩ := mem b hb
    obtain ⟨k', hk', rfl⟩ := mem b' hb'
    simp only [bstart_succ]
    split <;> split <;> omega
  · intro i hi
    have hm := blockId_mem p nb i h hi
    have hl : blockId p nb i < (slices p nb).length := by rw [slices_length p nb h]; exact hm.1
    refine ⟨_, List.getElem?_eq_getElem hl, ?_⟩
    rw [slices_get p nb _ h]
    exact hm.2

/-- C25: BlockCovariance and SchurConditionalCovariance use `min(n_blocks, p)` blocks for `n_blocks ≥ 1`, and one
block for `n_blocks ≤ 0`; SchurCovariance and SchurLedoitWolfCovariance agree for `n_blocks ≥ 1` and raise ValueError for
`n_blocks ≤ 0`. -/
theorem C25_counts (n : ℤ) (p : ℕ) (hp : 1 ≤ p) :
    (1 ≤ n → (nbClamped n p : ℤ) = min n p ∧ schurNb? n p = .ok (nbClamped n p)) ∧
    (n ≤ 0 → nbClamped n p = 1 ∧ schurNb? n p = .error .valueError) ∧
    1 ≤ nbClamped n p ∧ nbClamped n p ≤ p ∧
    (blockInit p ⟨1, n, false⟩).nb = nbClamped n p := by
  refine ⟨fun h => ⟨by unfold nbClamped; omega, ?_⟩, fun h => ⟨by unfold nbClamped; omega, ?_⟩, nbClamped_pos n p hp,
    nbClamped_le n p, rfl⟩
  · rw [nbClamped_eq_schurNb n p h]; unfold schurNb?; rw [if_neg (by omega)]
  · unfold schurNb?; rw [if_pos (by omega)]

theorem sameBlock_iff (p nb : ℕ) (h : 1 ≤ nb) (i j : Fin p) : SameBlock (slices p nb) i j ↔ blockId p nb i = blockId p nb j := by
  constructor
  · rintro ⟨b, hb, hi, hj⟩
    obtain ⟨k, hk, rfl⟩ := List.getElem_of_mem hb
    have hk' : k < nb := by rwa [slices_length p nb h] at hk
    rw [slices_get p nb k h] at hi hj
    rw [blockId_eq p nb i k h hk' hi, blockId_eq p nb j k h hk' hj]
  · intro e
    have hm := blockId_mem p nb i h i.2
    have hl : blockId p nb i < (slices p nb).length := by rw [slices_length p nb h]; exact hm.1
    refine ⟨(slices p nb)[blockId p nb i], List.getElem_mem hl, ?_, ?_⟩
    · rw [slices_get p nb _ h]; exact hm.2
    · rw [slices_get p nb _ h, e]; exact (blockId_mem p nb j h j.2).2

/-! ## Reduction of the fitted attributes -/

variable {p : ℕ} (L : Lapack)

theorem schur_attrs (pr : SchurParam) (calls : List (Call (Fin p) ℝ)) (h : used pr.diff calls ≠ []) :
    ((new (schurCls L p) pr).run calls).location = .ok (ewaFold pr.r (used pr.diff calls)).mean ∧
    ((new (schurCls L p) pr).run calls).covariance = .ok (toSymmetric (schurCov L pr (ewaFold pr.r (used pr.diff calls)))) :=
  ⟨run_location (schur_lawful L p) pr calls h, run_covariance (schur_lawful L p) pr calls h⟩

theorem schur_attrs_inv (pr : SchurParam) (calls : List (Call (Fin p) ℝ)) (c : Matrix (Fin p) (Fin p) ℝ)
    (h : ((new (schurCls L p) pr).run calls).covariance = .ok c) :
    used pr.diff calls ≠ [] ∧ c = toSymmetric (schurCov L pr (ewaFold pr.r (used pr.diff calls))) :=
  run_covariance_inv (schur_lawful L p) pr calls c h

theorem schurCov_symm (pr : SchurParam) (s : EwaState (Fin p) ℝ) : Symm (schurCov L pr s) := by
  unfold schurCov; simp only []
  split
  · exact (C37_step_pd L _ _ _).1
  · exact symm_makePosDef L _ _

theorem schurCov_pd (pr : SchurParam) (s : EwaState (Fin p) ℝ) : PD (schurCov L pr s) := by
  unfold schurCov; simp only []
  split
  · exact C37_step_pd L _ _ _
  · exact pd_makePosDef L _ (by positivity)

/-- gamma = 0 (both interpolations): eigenvalue floor of the block-diagonal part. -/
theorem schurCov_zero (pr : SchurParam) (hg : pr.gamma = 0) (s : EwaState (Fin p) ℝ) (hs : Symm s.cov) :
    schurCov L pr s = makePosDef L (blockDiag p (schurNb pr.nBlocks p) s.cov) := by
  have hb := blockDiag_symm (nb := schurNb pr.nBlocks p) hs
  unfold schurCov; simp only []
  split
  · rw [hg, (C37_endpoints_floored L _ _).1]
    exact C50_idempotent L _ _
  · rw [hg, dampCross_zero, toSymmetric_of_symm hb]

/-! ## C30 SchurCovariance -/

/-- C30: positive-definite for every stream, rate, block count, `gamma` and interpolation. -/
theorem C30_pd (pr : SchurParam) (calls : List (Call (Fin p) ℝ)) (c : Matrix (Fin p) (Fin p) ℝ)
    (h : ((new (schurCls L p) pr).run calls).covariance = .ok c) : PD c := by
  obtain ⟨-, rfl⟩ := schur_attrs_inv L pr calls c h
  rw [toSymmetric_of_symm (schurCov_symm L pr _)]
  exact schurCov_pd L pr _

/-- C30: with `gamma = 0` every entry between different blocks is zero (either interpolation). -/
theorem C30_gamma_zero (pr : SchurParam) (hg : pr.gamma = 0) (hn : 1 ≤ pr.nBlocks) (calls : List (Call (Fin p) ℝ))
    (c : Matrix (Fin p) (Fin p) ℝ) (h : ((new (schurCls L p) pr).run calls).covariance = .ok c) (i j : Fin p)
    (hij : ¬ SameBlock (slices p (schurNb pr.nBlocks p)) i j) : c i j = 0 := by
  obtain ⟨-, rfl⟩ := schur_attrs_inv L pr calls c h
  have hp : 1 ≤ p := by have := i.2; omega
  have hb : 1 ≤ schurNb pr.nBlocks p := by unfold schurNb; omega
  have hs := symm_ewaFold pr.r (used pr.diff calls)
  rw [toSymmetric_of_symm (schurCov_symm L pr _), schurCov_zero L pr hg _ hs, makePosDef_blockDiag L hb hs]
  refine blockAssemble_out hb _ i j fun k hk => hij ?_
  rw [sameBlock_iff p _ hb]
  rw [(blockId_iff p _ i k hb i.2 k.2).1 hk.1, (blockId_iff p _ j k hb j.2 k.2).1 hk.2]

/-- C30: with `gamma = 1` it reports the EWA covariance of the same stream when that has all eigenvalues at least 1e-8
(either interpolation); in general the EWA covariance with its eigenvalues floored at 1e-8. -/
theorem C30_gamma_one (pr : SchurParam) (hg : pr.gamma = 1) (calls : List (Call (Fin p) ℝ)) (c : Matrix (Fin p) (Fin p) ℝ)
    (h : ((new (ewaCls (Fin p) ℝ) ⟨pr.r, pr.diff⟩).run calls).covariance = .ok c) :
    ((new (schurCls L p) pr).run calls).covariance = .ok (makePosDef L c) ∧
    (MinEigGE c (1 / 10 ^ 8) → ((new (schurCls L p) pr).run calls).covariance = .ok c) := by
  obtain ⟨hne, rfl⟩ := ewa_attrs_inv _ calls c h
  have hs := symm_ewaFold pr.r (used pr.diff calls)
  have key : ((new (schurCls L p) pr).run calls).covariance = .ok (makePosDef L (ewaFold pr.r (used pr.diff calls)).cov) := by
    rw [(schur_attrs L pr calls hne).2, toSymmetric_of_symm (schurCov_symm L pr _)]
    congr 1
    unfold schurCov; simp only []
    split
    · rw [hg, (C37_endpoints_floored L _ _).2]; exact C50_idempotent L _ _
    · have : dampCross (fun i : Fin p => blockId p (schurNb pr.nBlocks p) i) pr.gamma (ewaFold pr.r (used pr.diff calls)).cov
          = (ewaFold pr.r (used pr.diff calls)).cov := by
        rw [hg, dampCross_convex]; simp
      rw [this, toSymmetric_of_symm hs]
  refine ⟨key, fun hm => ?_⟩
  rw [key, (C50_identity L _ _ hm).2 hs]

theorem blockDiag_minEig {nb : ℕ} (hb : 1 ≤ nb) {a : Matrix (Fin p) (Fin p) ℝ} (hs : Symm a) {m : ℝ} (h : MinEigGE a m) :
    MinEigGE (blockDiag p nb a) m := by
  intro x
  have hpsd : PSD (a - m • (1 : Matrix (Fin p) (Fin p) ℝ)) :=
    ⟨hs.sub (symm_one.smul m), fun y => by rw [quad_sub, quad_smul, quad_one]; linarith [h y]⟩
  have := (blockDiag_psd hb hpsd).2 x
  have e : blockDiag p nb (a - m • (1 : Matrix (Fin p) (Fin p) ℝ)) = blockDiag p nb a - m • 1 := by
    ext i j
    by_cases hij : blockId p nb i = blockId p nb j
    · simp [blockDiag, hij]
    · have : i ≠ j := fun e => hij (by rw [e])
      simp [blockDiag, hij, one_apply, this]
  rw [e, quad_sub, quad_smul, quad_one] at this
  linarith

open Classical in
/-- The EWA covariance with the entries between blocks multiplied by `g` (specification). -/
noncomputable def damped (bs : List (ℕ × ℕ)) (g : ℝ) (c : Matrix (Fin p) (Fin p) ℝ) : Matrix (Fin p) (Fin p) ℝ :=
  Matrix.of fun i j => if SameBlock bs i j then c i j else g * c i j

theorem damped_eq {nb : ℕ} (hb : 1 ≤ nb) (g : ℝ) (c : Matrix (Fin p) (Fin p) ℝ) :
    damped (slices p nb) g c = dampCross (fun i : Fin p => blockId p nb i) g c := by
  ext i j
  simp only [damped, dampCross, of_apply, sameBlock_iff p nb hb]
  by_cases h : blockId p nb i = blockId p nb j
  · simp [h]
  · simp [h, mul_comm]

/-- C30 (linear interpolation): `covariance_` is the damped EWA covariance with its eigenvalues floored at 1e-8: before the
floor the entries inside a block are those of the EWA covariance and those between blocks are multiplied by `gamma`.
For `gamma` in [0,1] and `r` in [0,1] the damped matrix is already PSD, and if the EWA covariance has
eigenvalues at least 1e-8 no floor applies. -/
theorem C30_linear (pr : SchurParam) (hi : pr.interpolation ≠ "geodesic") (hn : 1 ≤ pr.nBlocks) (hp : 1 ≤ p)
    (calls : List (Call (Fin p) ℝ)) (c : Matrix (Fin p) (Fin p) ℝ)
    (h : ((new (ewaCls (Fin p) ℝ) ⟨pr.r, pr.diff⟩).run calls).covariance = .ok c) :
    let D := damped (slices p (schurNb pr.nBlocks p)) pr.gamma c
    ((new (schurCls L p) pr).run calls).covariance = .ok (makePosDef L D) ∧
    (0 ≤ pr.gamma → pr.gamma ≤ 1 → 0 ≤ pr.r → pr.r ≤ 1 → PSD D) ∧
    (0 ≤ pr.gamma → pr.gamma ≤ 1 → MinEigGE c (1 / 10 ^ 8) → ((new (schurCls L p) pr).run calls).covariance = .ok D) := by
  intro D
  have hb : 1 ≤ schurNb pr.nBlocks p := by unfold schurNb; omega
  obtain ⟨hne, rfl⟩ := ewa_attrs_inv _ calls c h
  have hs := symm_ewaFold pr.r (used pr.diff calls)
  have hD : D = dampCross (fun i : Fin p => blockId p (schurNb pr.nBlocks p) i) pr.gamma (ewaFold pr.r (used pr.diff calls)).cov :=
    damped_eq hb _ _
  have hDc : D = pr.gamma • (ewaFold pr.r (used pr.diff calls)).cov
      + (1 - pr.gamma) • blockDiag p (schurNb pr.nBlocks p) (ewaFold pr.r (used pr.diff calls)).cov := by
    rw [hD, dampCross_convex]
  have hDs : Symm D := by rw [hDc]; exact (hs.smul _).add ((blockDiag_symm hs).smul _)
  have key : ((new (schurCls L p) pr).run calls).covariance = .ok (makePosDef L D) := by
    rw [(schur_attrs L pr calls hne).2, toSymmetric_of_symm (schurCov_symm L pr _)]
    congr 1
    unfold schurCov; simp only []
    rw [if_neg hi, ← hD, toSymmetric_of_symm hDs]
  refine ⟨key, fun g0 g1 r0 r1 => ?_, fun g0 g1 hm => ?_⟩
  · have hpsd : PSD (ewaFold pr.r (used pr.diff calls)).cov := ewaFold_psd r0 r1 _
    rw [hDc]
    exact (hpsd.smul g0).add ((blockDiag_psd hb hpsd).smul (by linarith))
  · rw [key, (C50_identity L D _ ?_).2 hDs]
    intro x
    rw [hDc, quad_add, quad_smul, quad_smul]
    have h1 := hm x
    have h2 := blockDiag_minEig hb hs hm x
    nlinarith [mul_le_mul_of_nonneg_left h1 g0, mul_le_mul_of_nonneg_left h2 (show 0 ≤ 1 - pr.gamma by linarith)]

/-- C30 (geodesic interpolation): with EWA eigenvalues at least 1e-8 the determinant of `covariance_` is the geometric
interpolation between the block-diagonal part and the full matrix. -/
theorem C30_geodesic_det (pr : SchurParam) (hi : pr.interpolation = "geodesic") (hn : 1 ≤ pr.nBlocks) (hp : 1 ≤ p)
    (calls : List (Call (Fin p) ℝ)) (c c' : Matrix (Fin p) (Fin p) ℝ)
    (h : ((new (ewaCls (Fin p) ℝ) ⟨pr.r, pr.diff⟩).run calls).covariance = .ok c) (hm : MinEigGE c (1 / 10 ^ 8))
    (h' : ((new (schurCls L p) pr).run calls).covariance = .ok c') :
    c'.det = (damped (slices p (schurNb pr.nBlocks p)) 0 c).det ^ (1 - pr.gamma) * c.det ^ pr.gamma := by
  have hb : 1 ≤ schurNb pr.nBlocks p := by unfold schurNb; omega
  obtain ⟨hne, rfl⟩ := ewa_attrs_inv _ calls c h
  obtain ⟨-, rfl⟩ := schur_attrs_inv L pr calls c' h'
  rw [toSymmetric_of_symm (schurCov_symm L pr _)]
  set C := (ewaFold pr.r (used pr.diff calls)).cov with hC
  have hs : Symm C := symm_ewaFold pr.r (used pr.diff calls)
  have hs' : Symm (blockDiag p (schurNb pr.nBlocks p) C) := blockDiag_symm hs
  have hm' := blockDiag_minEig hb hs hm
  have e1 : schurCov L pr (ewaFold pr.r (used pr.diff calls)) = geodesicStep L (blockDiag p (schurNb pr.nBlocks p) C) C pr.gamma := by
    unfold schurCov; simp only []
    rw [if_pos hi, (C50_identity L _ _ hm).2 hs]
    have := (C50_identity L _ _ hm').2 hs'
    unfold blockDiag at this
    rw [this]; rfl
  rw [e1, C37_det L _ _ hs' hs hm' hm, damped_eq hb, dampCross_zero]

/-! ## C26 BlockCovariance -/

theorem blockFold_subs (pr : BlockParam) (xs : List (Fin p → ℝ)) :
    xs.foldl blockUpdate (blockInit p pr) =
      { nSamples := xs.length, r := pr.r, nBurn := ewaBurnN pr.r, nb := nbClamped pr.nBlocks p
        subs := fun k => (ewaFold pr.r xs).restrict (Subtype.val : BlockIx p (nbClamped pr.nBlocks p) k → Fin p) } := by
  rw [blockFold_spec]
  simp only [blockInit, Nat.zero_add]
  congr 1
  funext k
  rw [ewaFold_restrict]
  rfl

theorem block_attrs (pr : BlockParam) (hp : 1 ≤ p) (calls : List (Call (Fin p) ℝ)) (h : used pr.diff calls ≠ []) :
    ((new (blockCls L p) pr).run calls).location = .ok (ewaFold pr.r (used pr.diff calls)).mean ∧
    ((new (blockCls L p) pr).run calls).covariance
      = .ok (makePosDef L (blockDiag p (nbClamped pr.nBlocks p) (ewaFold pr.r (used pr.diff calls)).cov)) := by
  have hb := nbClamped_pos pr.nBlocks p hp
  have hs := symm_ewaFold pr.r (used pr.diff calls)
  constructor
  · rw [run_location (block_lawful L p) pr calls h]
    congr 1
    show blockAssembleVec (fun k => (((used pr.diff calls).foldl blockUpdate (blockInit p pr)).subs k).mean) = _
    rw [blockFold_subs]
    ext i
    obtain ⟨k, hk⟩ := exists_inBlock hb i
    exact blockAssembleVec_in hb _ k ⟨i, hk⟩
  · rw [run_covariance (block_lawful L p) pr calls h]
    congr 1
    have e : blockCov L ((used pr.diff calls).foldl blockUpdate (blockInit p pr))
        = makePosDef L (blockDiag p (nbClamped pr.nBlocks p) (ewaFold pr.r (used pr.diff calls)).cov) := by
      rw [blockFold_subs, makePosDef_blockDiag L hb hs]
      unfold blockCov pdBlock
      simp only [EwaState.restrict]
      congr 1
      funext k
      rw [toSymmetric_of_symm (fun i j => hs i.1 j.1)]
    show toSymmetric (blockCov L ((used pr.diff calls).foldl blockUpdate (blockInit p pr))) = _
    rw [e, toSymmetric_of_symm (symm_makePosDef L _ _)]

/-- C26: on every history BlockCovariance(r, n_blocks) reports the same `covariance_` and `location_` as
SchurCovariance(r, n_blocks, gamma=0), for either interpolation (`n_blocks ≥ 1`). -/
theorem C26_is_schur (pr : BlockParam) (hn : 1 ≤ pr.nBlocks) (hp : 1 ≤ p) (interp : String) (calls : List (Call (Fin p) ℝ)) :
    ((new (blockCls L p) pr).run calls).covariance
      = ((new (schurCls L p) ⟨pr.r, pr.nBlocks, 0, interp, pr.diff⟩).run calls).covariance ∧
    ((new (blockCls L p) pr).run calls).location
      = ((new (schurCls L p) ⟨pr.r, pr.nBlocks, 0, interp, pr.diff⟩).run calls).location := by
  by_cases hne : used pr.diff calls = []
  · have h1 := run_unfitted (block_lawful L p) pr calls hne
    have h2 := run_unfitted (schur_lawful L p) (show (schurCls L p).Param from ⟨pr.r, pr.nBlocks, 0, interp, pr.diff⟩) calls hne
    exact ⟨h1.1.trans h2.1.symm, h1.2.trans h2.2.symm⟩
  · have a := block_attrs L pr hp calls hne
    have b := schur_attrs L ⟨pr.r, pr.nBlocks, 0, interp, pr.diff⟩ calls hne
    refine ⟨?_, a.1.trans b.1.symm⟩
    rw [a.2, b.2, toSymmetric_of_symm (schurCov_symm L _ _), schurCov_zero L _ rfl _ (symm_ewaFold _ _),
      nbClamped_eq_schurNb _ _ hn]

/-- C26: BlockCovariance's `covariance_` is positive-definite, zero between blocks, and its own `precision_` (computed block
by block) is exactly the inverse of `covariance_`. -/
theorem C26_block (pr : BlockParam) (hp : 1 ≤ p) (calls : List (Call (Fin p) ℝ)) (c : Matrix (Fin p) (Fin p) ℝ)
    (h : ((new (blockCls L p) pr).run calls).covariance = .ok c) :
    PD c ∧ (∀ i j : Fin p, ¬ SameBlock (slices p (nbClamped pr.nBlocks p)) i j → c i j = 0) ∧
    ∃ q, blockPrecision L ((new (blockCls L p) pr).run calls) = .ok q ∧ q * c = 1 ∧ c * q = 1 := by
  have hb := nbClamped_pos pr.nBlocks p hp
  have hne := (run_covariance_inv (block_lawful L p) pr calls c h).1
  have hs := symm_ewaFold pr.r (used pr.diff calls)
  have h0 := h
  rw [(block_attrs L pr hp calls hne).2] at h
  cases h
  refine ⟨pd_makePosDef L _ (by positivity), fun i j hij => ?_, ?_⟩
  · rw [makePosDef_blockDiag L hb hs]
    refine blockAssemble_out hb _ i j fun k hk => hij ?_
    rw [sameBlock_iff p _ hb]
    rw [(blockId_iff p _ i k hb i.2 k.2).1 hk.1, (blockId_iff p _ j k hb j.2 k.2).1 hk.2]
  · have hst := run_fittedState (block_lawful L p) pr calls hne
    change _ = Except.ok ((used pr.diff calls).foldl blockUpdate (blockInit p pr)) at hst
    refine ⟨_, by unfold blockPrecision; rw [hst]; rfl, ?_⟩
    rw [blockFold_subs, makePosDef_blockDiag L hb hs]
    unfold blockPrec
    have e : ∀ k, pdBlock L ((ewaFold pr.r (used pr.diff calls)).restrict (Subtype.val : BlockIx p (nbClamped pr.nBlocks p) k → Fin p))
        = makePosDef L ((ewaFold pr.r (used pr.diff calls)).cov.submatrix Subtype.val Subtype.val) := by
      intro k
      unfold pdBlock
      rw [toSymmetric_of_symm]
      · rfl
      · exact fun i j => hs i.1 j.1
    simp only [e]
    have hd : ∀ k : Fin (nbClamped pr.nBlocks p), IsUnit (makePosDef L ((ewaFold pr.r (used pr.diff calls)).cov.submatrix Subtype.val Subtype.val
        : Matrix (BlockIx p (nbClamped pr.nBlocks p) k) _ ℝ)).det := fun k =>
      isUnit_iff_ne_zero.2 (pd_makePosDef L _ (by positivity)).det_pos.ne'
    constructor
    · rw [blockAssemble_mul hb]
      rw [← blockAssemble_one hb]
      congr 1; funext k
      exact nonsing_inv_mul _ (hd k)
    · rw [blockAssemble_mul hb]
      rw [← blockAssemble_one hb]
      congr 1; funext k
      exact mul_nonsing_inv _ (hd k)

end Precise
