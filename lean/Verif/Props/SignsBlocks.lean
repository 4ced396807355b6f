import Verif.Props.Signs

/-!
# C129, continued: the block estimators, and the one estimator that does depend on the signs
-/

set_option linter.all false

open Matrix

namespace Precise

open Spec Obj

section Rect
variable {α β γ : Type} [Fintype α] [Fintype β] [Fintype γ] [DecidableEq α] [DecidableEq β]

/-- rows turned by `u`, columns by `v` -/
def flipRect (u : α → ℝ) (v : β → ℝ) (a : Matrix α β ℝ) : Matrix α β ℝ := Matrix.of fun i j => u i * a i j * v j

theorem flipRect_mul {v : β → ℝ} (hv : Signs v) (u : α → ℝ) (z : γ → ℝ) (a : Matrix α β ℝ) (b : Matrix β γ ℝ) :
    flipRect u v a * flipRect v z b = flipRect u z (a * b) := by
  ext i k
  simp only [flipRect, Matrix.mul_apply, of_apply, Finset.mul_sum, Finset.sum_mul]
  refine Finset.sum_congr rfl fun j _ => ?_
  have := hv.sq j
  calc _ = (v j * v j) * (u i * (a i j * b j k) * z k) := by ring
    _ = _ := by rw [this, one_mul]

theorem flipRect_transpose (u : α → ℝ) (v : β → ℝ) (a : Matrix α β ℝ) : (flipRect u v a)ᵀ = flipRect v u aᵀ := by
  ext i j; simp only [flipRect, transpose_apply, of_apply]; ring

theorem flipRect_smul (u : α → ℝ) (v : β → ℝ) (c : ℝ) (a : Matrix α β ℝ) : c • flipRect u v a = flipRect u v (c • a) := by
  ext i j; simp only [flipRect, of_apply, Matrix.smul_apply, smul_eq_mul]; ring

theorem flipRect_add (u : α → ℝ) (v : β → ℝ) (a b : Matrix α β ℝ) : flipRect u v a + flipRect u v b = flipRect u v (a + b) := by
  ext i j; simp only [flipRect, of_apply, Matrix.add_apply]; ring

theorem flipRect_sub (u : α → ℝ) (v : β → ℝ) (a b : Matrix α β ℝ) : flipRect u v a - flipRect u v b = flipRect u v (a - b) := by
  ext i j; simp only [flipRect, of_apply, Matrix.sub_apply]; ring

theorem flip_inv {u : α → ℝ} (hu : Signs u) (a : Matrix α α ℝ) : (flipMat u a)⁻¹ = flipMat u a⁻¹ := by
  have hD : (Matrix.diagonal u)⁻¹ = Matrix.diagonal u := by
    refine Matrix.inv_eq_left_inv ?_
    rw [Matrix.diagonal_mul_diagonal, ← Matrix.diagonal_one]
    congr 1; funext i; exact hu.sq i
  rw [← flipQ_conj, ← flipQ_conj, Matrix.diagonal_transpose, Matrix.mul_inv_rev, Matrix.mul_inv_rev, hD, Matrix.mul_assoc]

theorem flip_det {u : α → ℝ} (hu : Signs u) (a : Matrix α α ℝ) : (flipMat u a).det = a.det := by
  have h : (Matrix.diagonal u).det * (Matrix.diagonal u).det = 1 := by
    rw [← Matrix.det_mul, Matrix.diagonal_mul_diagonal]
    have : (fun i => u i * u i) = fun _ => (1:ℝ) := by funext i; exact hu.sq i
    rw [this, Matrix.diagonal_one, Matrix.det_one]
  rw [← flipQ_conj, Matrix.diagonal_transpose, Matrix.det_mul, Matrix.det_mul]
  linear_combination a.det * h

theorem flip_makePosDef {u : α → ℝ} (hu : Signs u) (L : Lapack) (a : Matrix α α ℝ) (eps : ℝ) :
    makePosDef L (flipMat u a) eps = flipMat u (makePosDef L a eps) := by
  rw [← flipQ_conj, ← flipQ_conj]; exact conj_makePosDef (flipQ_orth hu) L a eps

theorem flip_geodesicStep {u : α → ℝ} (hu : Signs u) (L : Lapack) (a b : Matrix α α ℝ) (g : ℝ) :
    geodesicStep L (flipMat u a) (flipMat u b) g = flipMat u (geodesicStep L a b g) := by
  rw [← flipQ_conj, ← flipQ_conj, ← flipQ_conj]; exact conj_geodesicStep (flipQ_orth hu) L a b g

theorem flip_dampCross (u : α → ℝ) (bid : α → ℕ) (g : ℝ) (a : Matrix α α ℝ) :
    dampCross bid g (flipMat u a) = flipMat u (dampCross bid g a) := by
  ext i j
  simp only [dampCross, flipMat, of_apply]
  split_ifs <;> ring

theorem flip_entry_sq {u : α → ℝ} (hu : Signs u) (a : Matrix α α ℝ) (i j : α) : flipMat u a i j ^ 2 = a i j ^ 2 := by
  simp only [flipMat, of_apply]
  have h1 := hu.sq' i
  have h2 := hu.sq' j
  calc _ = u i ^ 2 * u j ^ 2 * a i j ^ 2 := by ring
    _ = _ := by rw [h1, h2, one_mul, one_mul]

end Rect

section Blocks
variable {p : ℕ} {w : Fin p → ℝ} (hw : Signs w) (L : Lapack)
include hw

/-- C129: SchurCovariance, both interpolations. -/
theorem C129_schur (pr : SchurParam) :
    Transports (schurCls L p) (schurCls L p) pr pr (flipVec w) (flipVec w) (flipMat w) := by
  refine transports_of_sim (schur_lawful L p) (schur_lawful L p) rfl (flip_used w _)
    (EwaFlip w) (EwaFlip.init w pr.r) (fun s t x h => h.update x) ?_ ?_
  · rintro (s : EwaState (Fin p) ℝ) t rfl _; rfl
  · rintro (s : EwaState (Fin p) ℝ) t rfl _
    show toSymmetric (schurCov L pr _) = flipMat w (toSymmetric (schurCov L pr s))
    rw [← flip_toSymmetric]
    congr 1
    unfold schurCov
    simp only []
    by_cases h : pr.interpolation = "geodesic"
    · rw [if_pos h, if_pos h]
      have e : (Matrix.of fun i j => if blockId p (schurNb pr.nBlocks p) i.1 ≠ blockId p (schurNb pr.nBlocks p) j.1 then 0 else flipMat w s.cov i j)
          = flipMat w (Matrix.of fun i j : Fin p => if blockId p (schurNb pr.nBlocks p) i.1 ≠ blockId p (schurNb pr.nBlocks p) j.1 then 0 else s.cov i j) := by
        ext i j
        simp only [flipMat, of_apply]
        split_ifs <;> ring
      rw [e, flip_makePosDef hw, flip_makePosDef hw, flip_geodesicStep hw]
    · rw [if_neg h, if_neg h, flip_dampCross, flip_toSymmetric, flip_makePosDef hw]

/-- C129: SchurLedoitWolfCovariance. -/
theorem C129_schurLW (pr : BlockParam) :
    Transports (schurLWCls L p) (schurLWCls L p) pr pr (flipVec w) (flipVec w) (flipMat w) := by
  refine transports_of_sim (schurLW_lawful L p) (schurLW_lawful L p) rfl (flip_used w _)
    (fun (s : SLWState (Fin p)) (t : SLWState (Fin p)) => EwaFlip w s.toEwaState t.toEwaState ∧ t.piCross = s.piCross)
    ⟨EwaFlip.init w pr.r, rfl⟩ ?_ ?_ ?_
  · rintro (s : SLWState (Fin p)) ⟨t, pc⟩ x ⟨h, hp⟩
    replace hp : pc = s.piCross := hp
    replace h : EwaFlip w s.toEwaState t := h
    have hu := h.update x
    subst hp
    replace h : t = _ := h
    subst h
    show EwaFlip w (slwUpdate pr s x).toEwaState (slwUpdate pr _ _).toEwaState ∧ (slwUpdate pr _ _).piCross = (slwUpdate pr s x).piCross
    unfold slwUpdate
    unfold ewaUpdate at hu
    by_cases hb : s.nSamples < s.nBurn
    · simp only [if_pos hb] at hu ⊢
      exact ⟨hu, trivial⟩
    · simp only [if_neg hb] at hu ⊢
      refine ⟨hu, ?_⟩
      congr 2
      congr 1
      ext i j
      simp only [of_apply]
      have hd : (fun i => flipVec w x i - flipVec w s.mean i) = flipVec w (fun i => x i - s.mean i) := by
        ext i; simp only [flipVec]; ring
      have hsq := flip_entry_sq hw (outer (fun i => x i - s.mean i) (fun i => x i - s.mean i) - s.cov) i j
      rw [hd, flip_outer]
      refine Eq.trans ?_ hsq
      congr 1
      simp only [flipMat, of_apply, Matrix.sub_apply]
      ring
  · rintro (s : SLWState (Fin p)) ⟨t, pc⟩ ⟨h, hp⟩ _
    replace h : t = _ := h
    subst h; rfl
  · rintro (s : SLWState (Fin p)) ⟨t, pc⟩ ⟨h, hp⟩ _
    replace hp : pc = s.piCross := hp
    replace h : t = _ := h
    subst hp h
    show toSymmetric (slwCov L pr _) = flipMat w (toSymmetric (slwCov L pr s))
    rw [← flip_toSymmetric]
    congr 1
    unfold slwCov slwGamma
    simp only [flip_entry_sq hw]
    rw [flip_dampCross, flip_toSymmetric, flip_makePosDef hw]

omit hw in
theorem ewaFold_flip (w : Fin p → ℝ) (r : ℝ) (xs : List (Fin p → ℝ)) : EwaFlip w (ewaFold r xs) (ewaFold r (xs.map (flipVec w))) := by
  induction xs using List.reverseRecOn with
  | nil => exact EwaFlip.init w r
  | append_singleton xs x ih =>
    simp only [List.map_append, List.map_cons, List.map_nil]
    rw [ewaFold_snoc, ewaFold_snoc]
    exact ih.update x

/-- C129: BlockCovariance. -/
theorem C129_block (hp : 1 ≤ p) (pr : BlockParam) :
    Transports (blockCls L p) (blockCls L p) pr pr (flipVec w) (flipVec w) (flipMat w) := by
  have key : ∀ xs : List (Fin p → ℝ), xs ≠ [] →
      (blockCls L p).toMean pr (xs.foldl blockUpdate (blockInit p pr)) = (ewaFold pr.r xs).mean ∧
      toSymmetric ((blockCls L p).toCov pr (xs.foldl blockUpdate (blockInit p pr)))
        = makePosDef L (blockDiag p (nbClamped pr.nBlocks p) (ewaFold pr.r xs).cov) := by
    intro xs hne
    have hu : used false [Call.partialFit (.batch xs)] = xs := by simp [used, effective, rowsSinceFit, rowsOf]
    have a := block_attrs L ⟨pr.r, pr.nBlocks, false⟩ hp [.partialFit (.batch xs)] (by show used false _ ≠ []; rw [hu]; exact hne)
    have b1 := run_location (block_lawful L p) (⟨pr.r, pr.nBlocks, false⟩ : BlockParam) [.partialFit (.batch xs)] (by show used false _ ≠ []; rw [hu]; exact hne)
    have b2 := run_covariance (block_lawful L p) (⟨pr.r, pr.nBlocks, false⟩ : BlockParam) [.partialFit (.batch xs)] (by show used false _ ≠ []; rw [hu]; exact hne)
    have c1 := Except.ok.inj (b1.symm.trans a.1)
    have c2 := Except.ok.inj (b2.symm.trans a.2)
    simp only [show used (blockCls L p |>.diff (⟨pr.r, pr.nBlocks, false⟩ : BlockParam)) [Call.partialFit (.batch xs)] = xs from hu, hu] at c1 c2
    exact ⟨c1, c2⟩
  have pos : ∀ xs : List (Fin p → ℝ), 0 < (blockCls L p).nSamples (xs.foldl blockUpdate (blockInit p pr)) → xs ≠ [] := by
    rintro xs h rfl
    exact absurd h (lt_irrefl 0)
  refine transports_of_sim (block_lawful L p) (block_lawful L p) rfl (flip_used w _)
    (fun s t => ∃ xs : List (Fin p → ℝ), s = xs.foldl blockUpdate (blockInit p pr) ∧
      t = (xs.map (flipVec w)).foldl blockUpdate (blockInit p pr)) ⟨[], rfl, rfl⟩ ?_ ?_ ?_
  · rintro _ _ x ⟨xs, rfl, rfl⟩
    refine ⟨xs ++ [x], ?_, ?_⟩
    · rw [List.foldl_append]; rfl
    · rw [List.map_append, List.foldl_append]; rfl
  · rintro _ _ ⟨xs, rfl, rfl⟩ h0
    have hne := pos xs h0
    refine ((key _ (by simpa using hne)).1).trans (Eq.trans ?_ (congrArg (flipVec w) (key xs hne).1.symm))
    rw [ewaFold_flip w pr.r xs]
  · rintro _ _ ⟨xs, rfl, rfl⟩ h0
    have hne := pos xs h0
    refine ((key _ (by simpa using hne)).2).trans (Eq.trans ?_ (congrArg (flipMat w) (key xs hne).2.symm))
    rw [ewaFold_flip w pr.r xs]
    have e : blockDiag p (nbClamped pr.nBlocks p) (flipMat w (ewaFold pr.r xs).cov) = flipMat w (blockDiag p (nbClamped pr.nBlocks p) (ewaFold pr.r xs).cov) := by
      ext i j
      simp only [blockDiag, flipMat, of_apply]
      split_ifs <;> ring
    rw [← flip_makePosDef hw, ← e]

end Blocks

section SchurCond
variable {p : ℕ} {w : Fin p → ℝ} (hw : Signs w) (L : Lapack)
include hw

theorem flip_scSystem (nb k : ℕ) (R : Matrix (Fin p) (Fin p) ℝ) (n : ℝ) :
    scSystem nb k (flipMat w R) n = flipMat (fun i : PrevIx p nb k => w i.1) (scSystem nb k R n) := by
  have hs : Signs (fun i : PrevIx p nb k => w i.1) := fun i => hw i.1
  unfold scSystem
  simp only []
  rw [flip_add, flip_add, flip_smul, flip_smul, flip_smul, flip_one hs, flip_diagonal hs]
  have : ∀ i : PrevIx p nb k, (flipMat w R).submatrix Subtype.val Subtype.val i i = R.submatrix Subtype.val Subtype.val i i := by
    intro i; exact flip_diag hw R i.1
  simp only [this]
  rfl

theorem flip_scStep (nb k : ℕ) (R Rg : Matrix (Fin p) (Fin p) ℝ) (n g : ℝ) :
    scStep L nb (flipMat w R) n g (flipMat w Rg) k = flipMat w (scStep L nb R n g Rg k) := by
  set u : PrevIx p nb k → ℝ := fun i => w i.1 with hu
  set v : BlockIx p nb k → ℝ := fun i => w i.1 with hv
  have hus : Signs u := fun i => hw i.1
  have hvs : Signs v := fun i => hw i.1
  have e1 : ((flipMat w R).submatrix Subtype.val Subtype.val : Matrix (PrevIx p nb k) (BlockIx p nb k) ℝ)
      = flipRect u v (R.submatrix Subtype.val Subtype.val) := rfl
  have e2 : ((flipMat w R).submatrix Subtype.val Subtype.val : Matrix (BlockIx p nb k) (BlockIx p nb k) ℝ)
      = flipRect v v (R.submatrix Subtype.val Subtype.val) := rfl
  have e3 : ((flipMat w Rg).submatrix Subtype.val Subtype.val : Matrix (PrevIx p nb k) (PrevIx p nb k) ℝ)
      = flipRect u u (Rg.submatrix Subtype.val Subtype.val) := rfl
  have e4 : (scSystem nb k (flipMat w R) n)⁻¹ = flipRect u u (scSystem nb k R n)⁻¹ := by
    rw [flip_scSystem hw, flip_inv hus]; rfl
  have e5 : ∀ a : Matrix (BlockIx p nb k) (BlockIx p nb k) ℝ, makePosDef L (toSymmetric (flipRect v v a)) = flipRect v v (makePosDef L (toSymmetric a)) := by
    intro a
    have := flip_makePosDef hvs L (toSymmetric a) (1 / 10 ^ 8)
    rw [← flip_toSymmetric] at this
    exact this
  unfold scStep
  simp only []
  rw [e1, e2, e3, e4]
  simp only [flipRect_transpose, flipRect_mul hus, flipRect_mul hvs, flipRect_smul, flipRect_sub, flipRect_add, e5]
  ext i j
  simp only [flipMat, of_apply]
  split_ifs <;> first | rfl | (simp only [flipRect, of_apply, hu, hv]; ring)

theorem flip_scReassemble (nb : ℕ) (R : Matrix (Fin p) (Fin p) ℝ) (n g : ℝ) :
    scReassemble L nb (flipMat w R) n g = flipMat w (scReassemble L nb R n g) := by
  have fold : ∀ (ks : List ℕ) (Rg : Matrix (Fin p) (Fin p) ℝ),
      ks.foldl (scStep L nb (flipMat w R) n g) (flipMat w Rg) = flipMat w (ks.foldl (scStep L nb R n g) Rg) := by
    intro ks
    induction ks with
    | nil => intro Rg; rfl
    | cons k ks ih => intro Rg; simp only [List.foldl_cons]; rw [flip_scStep hw, ih]
  unfold scReassemble
  simp only []
  rw [← fold]
  congr 1
  ext i j
  simp only [flipMat, of_apply]
  split_ifs <;> ring

theorem flip_scGamma (bid : Fin p → ℕ) (R : Matrix (Fin p) (Fin p) ℝ) (n : ℝ) : scGamma bid (flipMat w R) n = scGamma bid R n := by
  unfold scGamma
  simp only [flip_entry_sq hw]

/-- C129: SchurConditionalCovariance: `covariance_` raises for the turned data exactly when it raises for the original data,
and otherwise is turned with it. -/
theorem C129_schurCond (pr : BlockParam) (calls : List (Call (Fin p) ℝ)) :
    scCovariance? L ((new (schurCondCls L p) pr).run (calls.map (mapCall (flipVec w))))
      = (scCovariance? L ((new (schurCondCls L p) pr).run calls)).map (flipMat w) ∧
    ((new (schurCondCls L p) pr).run (calls.map (mapCall (flipVec w)))).location
      = ((new (schurCondCls L p) pr).run calls).location.map (flipVec w) ∧
    ((new (schurCondCls L p) pr).run (calls.map (mapCall (flipVec w)))).nSamples
      = ((new (schurCondCls L p) pr).run calls).nSamples := by
  have hu := flip_used w pr.diff calls
  have T : Transports (schurCondCls L p) (schurCondCls L p) pr pr (flipVec w) (flipVec w) (flipMat w) := by
    refine transports_of_sim (schurCond_lawful L p) (schurCond_lawful L p) rfl (flip_used w _)
      (EwaFlip w) (EwaFlip.init w pr.r) (fun s t x h => h.update x) ?_ ?_
    · rintro (s : EwaState (Fin p) ℝ) t rfl _; rfl
    · rintro (s : EwaState (Fin p) ℝ) t rfl _
      show toSymmetric (scCov L pr _) = flipMat w (toSymmetric (scCov L pr s))
      rw [← flip_toSymmetric]
      congr 1
      unfold scCov scGammaOf
      simp only [flip_covToCorr hw, flip_scGamma hw, flip_diag hw]
      rw [show (scNEff (⟨⟨s.nSamples, flipVec w s.mean, flipMat w s.cov⟩, s.r, s.nBurn⟩ : EwaState (Fin p) ℝ)) = scNEff s from rfl]
      rw [flip_scReassemble hw, flip_toSymmetric, flip_makePosDef hw]
      ext i j
      simp only [flipMat, of_apply]
      ring
  refine ⟨?_, (T calls).2.1, (T calls).1⟩
  by_cases hne : used pr.diff calls = []
  · have f : ∀ cs : List (Call (Fin p) ℝ), used pr.diff cs = [] → scCovariance? L ((new (schurCondCls L p) pr).run cs) = .error .notFitted := by
      intro cs hc
      have h := (run_unfitted (schurCond_lawful L p) pr cs hc).1
      unfold Obj.covariance at h
      unfold scCovariance?
      cases hf : ((new (schurCondCls L p) pr).run cs).fittedState with
      | error e => rw [hf] at h; simpa [Except.map, bind, Except.bind] using h
      | ok s => rw [hf] at h; simp [Except.map, bind, Except.bind, pure, Except.pure] at h
    rw [f _ hne, f _ (by rw [hu, hne]; rfl)]; rfl
  · have hne' : used pr.diff (calls.map (mapCall (flipVec w))) ≠ [] := by rw [hu]; simpa using hne
    have hc := (T calls).2.2
    rw [run_covariance (schurCond_lawful L p) pr calls hne, run_covariance (schurCond_lawful L p) pr _ hne'] at hc
    have hc := Except.ok.inj hc
    have a1 : (schurCondCls L p).diff pr = pr.diff := rfl
    rw [a1] at hc
    unfold scCovariance?
    rw [(sc_attrs L pr calls hne).1, (sc_attrs L pr _ hne').1, (sc_attrs L pr calls hne).2, (sc_attrs L pr _ hne').2]
    have h1 : scSolvable pr (ewaFold pr.r (used pr.diff (calls.map (mapCall (flipVec w))))) = scSolvable pr (ewaFold pr.r (used pr.diff calls)) := by
      rw [hu, ewaFold_flip w pr.r (used pr.diff calls)]
      unfold scSolvable
      simp only [flip_covToCorr hw, flip_scSystem hw, flip_det (fun i : PrevIx p _ _ => hw i.1)]
      rfl
    have h2 : toSymmetric (scCov L pr (ewaFold pr.r (used pr.diff (calls.map (mapCall (flipVec w))))))
        = flipMat w (toSymmetric (scCov L pr (ewaFold pr.r (used pr.diff calls)))) := hc
    simp only [h2]
    by_cases hs : scSolvable pr (ewaFold pr.r (used pr.diff calls))
    · rw [if_pos hs, if_pos (h1 ▸ hs)]; rfl
    · rw [if_neg hs, if_neg (h1 ▸ hs)]; rfl

end SchurCond

end Precise
