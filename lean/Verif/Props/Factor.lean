import Verif.Props.Dynamic
import Verif.Spec.Factor

/-!
# C39 (continued): the factors of FactorCovariance are the CCIPCA components of the stream
-/

set_option linter.all false

open Matrix

namespace Precise

open Spec Obj

variable {ι : Type} [Fintype ι] [DecidableEq ι]

theorem vecNorm_len (v : ι → ℝ) : vecNorm v = len v := by
  unfold vecNorm len normSq; rfl

theorem deflated_shift (v : ℕ → ι → ℝ) (u : ι → ℝ) (j : ℕ) :
    deflated (fun j => v (j + 1)) (deflated v u 1) j = deflated v u (j + 1) := by
  induction j with
  | zero => rfl
  | succ j ih => rw [deflated, ih]; rfl

theorem factorLoop_ccipca (lr : ℝ) (V : List (ι → ℝ)) : ∀ (v : ℕ → ι → ℝ) (u : ι → ℝ),
    (∀ j < V.length, V.getD j 0 = v j) → ∀ j < V.length, (factorLoop lr V u).getD j 0 = ccipcaStep EPS lr v u j := by
  induction V with
  | nil => intro v u _ j hj; simp at hj
  | cons w V ih =>
    intro v u h j hj
    have hw : w = v 0 := by simpa using h 0 (by simp)
    have ht : ∀ j < V.length, V.getD j 0 = v (j + 1) := fun j hj => by
      have := h (j + 1) (by simpa using hj); simpa using this
    subst hw
    unfold factorLoop
    simp only [vecNorm_len]
    split
    · rename_i hlt
      cases j with
      | zero => simp [ccipcaStep, not_le.2 hlt, deflated]
      | succ j =>
        have : ¬ ∀ i < j + 1, EPS ≤ len (v i) := fun hh => absurd (hh 0 (by omega)) (not_le.2 hlt)
        unfold ccipcaStep
        rw [if_neg this, List.getD_cons_succ, ht j (by simpa using hj)]
    · rename_i hge
      have hge' := not_lt.1 hge
      have hun : unitOf (v 0) = fun i => v 0 i / len (v 0) := by
        ext i; simp [unitOf, div_eq_inv_mul]
      cases j with
      | zero =>
        rw [List.getD_cons_zero]
        unfold ccipcaStep
        rw [if_pos (by simp), if_pos hge']
        ext i
        simp only [deflated, hun, Pi.add_apply, Pi.smul_apply, smul_eq_mul, Matrix.vecMulVec_mulVec, MulOpposite.smul_eq_mul_unop,
          MulOpposite.unop_op, dotProduct]
        ring
      | succ j =>
        rw [List.getD_cons_succ]
        have e : (fun i => u i - (∑ i, u i * (v 0 i / len (v 0))) * (v 0 i / len (v 0))) = deflated v u 1 := by
          ext i
          simp only [deflated, hun, Pi.sub_apply, Pi.smul_apply, smul_eq_mul, dotProduct]
          congr 2
          exact Finset.sum_congr rfl fun i _ => mul_comm _ _
        rw [e, ih (fun j => v (j + 1)) (deflated v u 1) ht j (by simpa using hj)]
        unfold ccipcaStep
        rw [deflated_shift]
        have : (∀ i < j, EPS ≤ len (v (i + 1))) ↔ ∀ i < j + 1, EPS ≤ len (v i) := by
          constructor
          · intro hh i hi
            cases i with
            | zero => exact hge'
            | succ i => exact hh i (by omega)
          · intro hh i hi; exact hh (i + 1) (by omega)
        simp only [this]

theorem innovation_append (r : ℝ) (b : ℕ) (xs ys : List (ι → ℝ)) (t : ℕ) (ht : t < xs.length) :
    innovation r b (xs ++ ys) t = innovation r b xs t := by
  unfold innovation
  rw [List.getD_append _ _ _ _ ht, List.take_append_of_le_length ht.le]

theorem ccipca_append (eps r : ℝ) (b : ℕ) (xs ys : List (ι → ℝ)) : ∀ t ≤ xs.length,
    ccipca eps r b (xs ++ ys) t = ccipca eps r b xs t
  | 0, _ => rfl
  | t + 1, h => by rw [ccipca, ccipca, ccipca_append eps r b xs ys t (by omega), innovation_append r b xs ys t (by omega)]

theorem factorFold_ccipca (pr : FactorParam) (xs : List (ι → ℝ)) : ∀ j < min pr.k (Fintype.card ι),
    (factorFold pr xs).V.getD j 0 = ccipca EPS pr.r (min pr.k (Fintype.card ι) + 1) xs xs.length j := by
  induction xs using List.reverseRecOn with
  | nil =>
    intro j hj
    simp only [factorFold, factorInit, List.foldl_nil, List.length_nil, ccipca]
    rw [List.getD_replicate _ hj]
  | append_singleton xs x ih =>
    intro j hj
    obtain ⟨hn, hr, hk, hb⟩ := factorFold_inv pr xs
    have hm := factorFold_mean pr xs
    have hl := (factorFold_V pr xs).1
    rw [factorFold_snoc, List.length_append, List.length_singleton, ccipca, ccipca_append _ _ _ _ _ _ le_rfl]
    unfold factorUpdate
    simp only []
    rw [factorLoop_ccipca _ _ (ccipca EPS pr.r (min pr.k (Fintype.card ι) + 1) xs xs.length) _ (by rw [hl]; exact ih) j (by rw [hl]; exact hj)]
    have e : (fun i => x i - (factorFold pr xs).mean i) = innovation pr.r (min pr.k (Fintype.card ι) + 1) (xs ++ [x]) xs.length := by
      unfold innovation; rw [hm]; ext i; simp
    rw [e, hn, hb, hr]

theorem factorPart_sum (k : ℕ) (v : ℕ → ι → ℝ) (V : List (ι → ℝ)) (hl : V.length = k) (h : ∀ j < k, V.getD j 0 = v j) :
    factorPart V = factorSum EPS k v := by
  classical
  have hV : V = (List.range k).map v := by
    apply List.ext_getElem (by simp [hl])
    intro i h1 h2
    rw [List.getElem_map, List.getElem_range, ← h i (by omega), List.getD_eq_getElem _ _ h1]
  unfold factorPart factorActive factorSum
  rw [hV]
  clear hV h hl
  induction k with
  | zero => simp
  | succ k ih =>
    rw [List.range_succ, List.map_append, List.filter_append, List.map_append, List.sum_append, ih, Finset.sum_range_succ]
    congr 1
    simp only [List.map_cons, List.map_nil, vecNorm_len]
    split
    · rename_i hgt
      have hp : 0 < len (v k) := lt_trans EPS_pos hgt
      rw [List.filter_cons_of_pos (by simpa using hgt)]
      ext i j
      simp [outer, vecMulVec, unitOf]
      field_simp
    · rename_i hgt
      rw [List.filter_cons_of_neg (by simpa using hgt)]
      simp

/-- C39: `covariance_` is the sum of the CCIPCA components of the stream of deviations from the running mean, plus the diagonal
of what the tracked variances exceed them by. -/
theorem C39_factors (pr : FactorParam) (calls : List (Call ι ℝ)) (C : Matrix ι ι ℝ)
    (hC : ((new (factorCls ι) pr).run calls).covariance = .ok C) :
    let xs := used pr.diff calls
    let k := min pr.k (Fintype.card ι)
    let F := factorSum (1 / 10 ^ 12) k (ccipca (1 / 10 ^ 12) pr.r (k + 1) xs xs.length)
    C = F + diagonal fun i => max (trackedVar pr.r (k + 1) xs i - F i i) 0 := by
  obtain ⟨h1, h2⟩ := run_covariance_inv (factor_lawful ι) pr calls C hC
  change C = toSymmetric (factorCov (factorFold pr (used pr.diff calls))) at h2
  have hF := factorPart_psd (factorFold pr (used pr.diff calls)).V
  have hs : Symm (factorCov (factorFold pr (used pr.diff calls))) := hF.1.add (symm_diagonal _)
  rw [toSymmetric_of_symm hs] at h2
  intro xs k F
  have hE : (EPS : ℝ) = 1 / 10 ^ 12 := by unfold EPS; norm_num
  have hp : factorPart (factorFold pr xs).V = F := by
    have := factorPart_sum k _ _ (factorFold_V pr xs).1 (factorFold_ccipca pr xs)
    rw [hE] at this; exact this
  rw [h2]
  unfold factorCov
  rw [hp]
  congr 2
  funext i
  rw [factorCaptured_eq, hp, factorFold_var]

-- C39_factors on the demo stream
example : ∃ C, ((new (factorCls (Fin 2)) (⟨1, 1/20, false⟩ : FactorParam)).run [.partialFit (.batch demoRows)]).covariance = .ok C :=
  run_cov_ok (factor_lawful (Fin 2)) (⟨1, 1/20, false⟩ : FactorParam) _ demo_ne

end Precise
