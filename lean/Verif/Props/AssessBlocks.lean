import Verif.Props.Assessors
import Verif.Props.DynUniverse
import Mathlib.Data.Matrix.Block
import Mathlib.LinearAlgebra.Matrix.Block

/-!
# C57: block and Schur likelihoods
-/

set_option linter.all false

open Matrix

namespace Precise

open Spec Obj

/-! ### Block-diagonal matrices along the fibres of a map -/

section Fibre

variable {ι : Type} [Fintype ι] [DecidableEq ι] {m : ℕ} (f : ι → Fin m)

/-- variables of one block -/
abbrev Fib (k : Fin m) : Type := {i : ι // f i = k}

/-- assemble one matrix per fibre -/
def fibDiag (a : (k : Fin m) → Matrix (Fib f k) (Fib f k) ℝ) : Matrix ι ι ℝ :=
  (blockDiagonal' a).submatrix (Equiv.sigmaFiberEquiv f).symm (Equiv.sigmaFiberEquiv f).symm

theorem fibDiag_mul (a b : (k : Fin m) → Matrix (Fib f k) (Fib f k) ℝ) :
    fibDiag f a * fibDiag f b = fibDiag f fun k => a k * b k := by
  unfold fibDiag
  rw [submatrix_mul_equiv, ← blockDiagonal'_mul]

theorem fibDiag_one : fibDiag f (fun k => (1 : Matrix (Fib f k) (Fib f k) ℝ)) = 1 := by
  unfold fibDiag
  rw [show (fun k => (1 : Matrix (Fib f k) (Fib f k) ℝ)) = 1 from rfl, blockDiagonal'_one, submatrix_one_equiv]

theorem fibDiag_in (a : (k : Fin m) → Matrix (Fib f k) (Fib f k) ℝ) (k : Fin m) (i j : Fib f k) : fibDiag f a i.1 j.1 = a k i j := by
  have hi : i.1 = Equiv.sigmaFiberEquiv f ⟨k, i⟩ := rfl
  have hj : j.1 = Equiv.sigmaFiberEquiv f ⟨k, j⟩ := rfl
  rw [hi, hj]
  simp only [fibDiag, submatrix_apply, Equiv.symm_apply_apply, blockDiagonal'_apply_eq]

theorem fibDiag_out (a : (k : Fin m) → Matrix (Fib f k) (Fib f k) ℝ) (i j : ι) (h : f i ≠ f j) : fibDiag f a i j = 0 := by
  have hi : i = Equiv.sigmaFiberEquiv f ⟨f i, ⟨i, rfl⟩⟩ := rfl
  have hj : j = Equiv.sigmaFiberEquiv f ⟨f j, ⟨j, rfl⟩⟩ := rfl
  rw [hi, hj]
  simp only [fibDiag, submatrix_apply, Equiv.symm_apply_apply]
  exact blockDiagonal'_apply_ne _ _ _ h

theorem fibDiag_det (a : (k : Fin m) → Matrix (Fib f k) (Fib f k) ℝ) : (fibDiag f a).det = ∏ k, (a k).det := by
  have hb : (fibDiag f a).BlockTriangular f := fun i j h => fibDiag_out f a i j (Ne.symm h.ne)
  rw [hb.det_fintype]
  refine Finset.prod_congr rfl fun k _ => ?_
  congr 1
  ext i j
  exact fibDiag_in f a k i j

theorem fibDiag_quad (a : (k : Fin m) → Matrix (Fib f k) (Fib f k) ℝ) (x : ι → ℝ) :
    quad (fibDiag f a) x = ∑ k, quad (a k) fun i => x i.1 := by
  simp only [quad_expand]
  rw [← (Equiv.sigmaFiberEquiv f).sum_comp, Fintype.sum_sigma]
  refine Finset.sum_congr rfl fun k _ => Finset.sum_congr rfl fun i _ => ?_
  rw [← (Equiv.sigmaFiberEquiv f).sum_comp, Fintype.sum_sigma, Finset.sum_eq_single k]
  · refine Finset.sum_congr rfl fun j _ => ?_
    simp only [fibDiag, submatrix_apply, Equiv.symm_apply_apply, blockDiagonal'_apply_eq]
    rfl
  · intro l _ hl
    refine Finset.sum_eq_zero fun j _ => ?_
    simp only [fibDiag, submatrix_apply, Equiv.symm_apply_apply]
    rw [blockDiagonal'_apply_ne _ _ _ (Ne.symm hl)]
    ring
  · intro h; exact absurd (Finset.mem_univ _) h

/-- the block-diagonal part along the fibres -/
theorem fibDiag_part (c : Matrix ι ι ℝ) :
    fibDiag f (fun k => c.submatrix Subtype.val Subtype.val) = Matrix.of fun i j => if f i = f j then c i j else 0 := by
  ext i j
  by_cases h : f i = f j
  · rw [of_apply, if_pos h]
    exact fibDiag_in f (fun k => c.submatrix Subtype.val Subtype.val) (f j) ⟨i, h⟩ ⟨j, rfl⟩
  · rw [of_apply, if_neg h, fibDiag_out _ _ _ _ h]

variable {c : Matrix ι ι ℝ}

theorem fibre_pd (h : PD c) (k : Fin m) : PD (c.submatrix Subtype.val Subtype.val : Matrix (Fib f k) (Fib f k) ℝ) :=
  h.submatrix_inj Subtype.val Subtype.val_injective

theorem fibDiag_part_pd (h : PD c) : PD (fibDiag f (fun k => c.submatrix Subtype.val Subtype.val)) := by
  refine ⟨fun i j => ?_, fun x hx => ?_⟩
  · rw [fibDiag_part]; simp only [of_apply, h.1 i j, eq_comm (a := f i)]
  · rw [fibDiag_quad]
    obtain ⟨i, hi⟩ := Function.ne_iff.1 hx
    refine Finset.sum_pos' (fun k _ => (fibre_pd f h k).psd.2 _) ⟨f i, Finset.mem_univ _, (fibre_pd f h (f i)).2 _ ?_⟩
    intro h0
    exact hi (congrFun h0 ⟨i, rfl⟩)

theorem fibDiag_part_inv (h : PD c) : (fibDiag f (fun k => c.submatrix Subtype.val Subtype.val))⁻¹
    = fibDiag f (fun k => (c.submatrix Subtype.val Subtype.val : Matrix (Fib f k) (Fib f k) ℝ)⁻¹) := by
  refine inv_eq_right_inv ?_
  rw [fibDiag_mul]
  have : (fun k => (c.submatrix Subtype.val Subtype.val : Matrix (Fib f k) (Fib f k) ℝ) * (c.submatrix Subtype.val Subtype.val)⁻¹)
      = fun k => 1 := funext fun k => mul_nonsing_inv _ (isUnit_iff_ne_zero.2 (fibre_pd f h k).det_pos.ne')
  rw [this, fibDiag_one]

/-- The log-density of a block-diagonal normal is the sum of the log-densities of the blocks. -/
theorem log_density_blocks (h : PD c) (x : ι → ℝ) :
    Real.log (gaussDensity 0 (Matrix.of fun i j => if f i = f j then c i j else 0) x)
      = ∑ k, Real.log (gaussDensity 0 (c.submatrix Subtype.val Subtype.val : Matrix (Fib f k) (Fib f k) ℝ) fun i => x i.1) := by
  rw [← fibDiag_part f c, log_gaussDensity 0 (fibDiag_part_pd f h), fibDiag_part_inv f h, fibDiag_quad, fibDiag_det,
    Real.log_prod fun k _ => (fibre_pd f h k).det_pos.ne']
  have hcard : (Fintype.card ι : ℝ) = ∑ k, (Fintype.card (Fib f k) : ℝ) := by
    rw [← Nat.cast_sum, ← Fintype.card_sigma, Fintype.card_congr (Equiv.sigmaFiberEquiv f)]
  rw [hcard]
  simp only [fun k => log_gaussDensity 0 (fibre_pd f h k), Finset.sum_sub_distrib, ← Finset.mul_sum, Finset.sum_add_distrib,
    ← Finset.sum_mul, sub_zero]

theorem gaussDensity_equiv {κ : Type} [Fintype κ] [DecidableEq κ] (e : κ ≃ ι) (S : Matrix ι ι ℝ) (x : ι → ℝ) :
    gaussDensity 0 (S.submatrix e e) (fun k => x (e k)) = gaussDensity 0 S x := by
  unfold gaussDensity
  rw [inv_submatrix_equiv, det_submatrix_equiv_self, Fintype.card_congr e]
  congr 3
  simp only [quad_expand, sub_zero]
  rw [← e.sum_comp]
  refine Finset.sum_congr rfl fun i _ => ?_
  rw [← e.sum_comp]
  rfl

end Fibre

/-! ### BlockPseudoLikelihood -/

variable {p : ℕ} (L : Lapack)

theorem ceil_div (p b : ℕ) (hb : 1 ≤ b) (i : ℕ) (hi : i < p) : i / b < (p + b - 1) / b := by
  have : (p + b - 1) / b = (p - 1) / b + 1 := by
    rw [show p + b - 1 = (p - 1) + b by omega, Nat.add_div_right _ hb]
  rw [this]
  have := Nat.div_le_div_right (c := b) (show i ≤ p - 1 by omega)
  omega

theorem blockTerm_eq (b : ℕ) (hb : 1 ≤ b) {c : Matrix (Fin p) (Fin p) ℝ} (h : PD c) (X : List (Fin p → ℝ)) {m : ℕ} (f : Fin p → Fin m)
    (hf : ∀ i, (f i : ℕ) = i / b) (k : Fin m) :
    blockTerm L c X b (k * b) = (((X.map fun x => Real.log (gaussDensity 0
      (c.submatrix Subtype.val Subtype.val : Matrix (Fib f k) (Fib f k) ℝ) fun i => x i.1)).sum / X.length : ℝ) : WithBot ℝ) := by
  have hiff : ∀ i : Fin p, (k * b ≤ i.1 ∧ i.1 < min (k * b + b) p) ↔ f i = k := by
    intro i
    rw [Fin.ext_iff, hf, Nat.div_eq_iff (by omega), Nat.lt_min]
    have := i.2
    constructor
    · rintro ⟨h1, h2, _⟩; exact ⟨h1, by omega⟩
    · rintro ⟨h1, h2⟩; exact ⟨h1, by omega, this⟩
  unfold blockTerm
  simp only []
  have hpd : PD (c.submatrix Subtype.val Subtype.val : Matrix (SliceIx p (k * b) (min (k * b + b) p)) (SliceIx p (k * b) (min (k * b + b) p)) ℝ) :=
    h.submatrix_inj Subtype.val Subtype.val_injective
  rw [gaussLoglik_pd L hpd]
  unfold meanLogLik
  rw [List.map_map, List.length_map]
  congr 3
  refine List.map_congr_left fun x _ => ?_
  simp only [Function.comp]
  congr 1
  exact gaussDensity_equiv (Equiv.subtypeEquivRight hiff) (c.submatrix Subtype.val Subtype.val : Matrix (Fib f k) (Fib f k) ℝ) fun i => x i.1

theorem foldl_withBot_sum {α : Type} (l : List α) (g : α → ℝ) (t : α → WithBot ℝ) (ht : ∀ a ∈ l, t a = (g a : WithBot ℝ)) (acc : ℝ) :
    l.foldl (fun tot a => tot + t a) (acc : WithBot ℝ) = ((acc + (l.map g).sum : ℝ) : WithBot ℝ) := by
  induction l generalizing acc with
  | nil => simp
  | cons a l ih =>
    rw [List.foldl_cons, ht a (by simp), ← WithBot.coe_add, ih (fun x hx => ht x (by simp [hx]))]
    simp [add_assoc]

/-- C57: BlockPseudoLikelihood of a positive-definite estimate is LogLikelihood of its block-diagonal part, the blocks
being `block_size` consecutive variables (the last one shorter). -/
theorem C57_block_is_block_diagonal (b : ℤ) (hb : 1 ≤ b) (c : Matrix (Fin p) (Fin p) ℝ) (h : PD c) (X : List (Fin p → ℝ)) :
    blockPseudoScore L b c X
      = .ok (logLikelihoodScore L (Matrix.of fun i j => if i.1 / b.toNat = j.1 / b.toNat then c i j else 0) X) := by
  obtain ⟨n, rfl⟩ : ∃ n : ℕ, b = n := ⟨b.toNat, by omega⟩
  have hn : 1 ≤ n := by omega
  unfold blockPseudoScore
  rw [if_neg (by omega), if_neg (by omega)]
  simp only [Int.toNat_natCast]
  congr 1
  set m := (p + n - 1) / n with hm
  let f : Fin p → Fin m := fun i => ⟨i / n, ceil_div p n hn i i.2⟩
  have hD : (Matrix.of fun i j : Fin p => if i.1 / n = j.1 / n then c i j else 0) = Matrix.of fun i j => if f i = f j then c i j else 0 := by
    ext i j; simp only [of_apply, f, Fin.mk.injEq]
  have hpd : PD (Matrix.of fun i j : Fin p => if f i = f j then c i j else 0) := by
    rw [← fibDiag_part f c]; exact fibDiag_part_pd f h
  rw [hD, (C56_loglik_value L _ X).1 hpd]
  unfold pyRangeStep
  rw [List.foldl_map, ← hm, ← List.map_coe_finRange_eq_range, List.foldl_map]
  have := foldl_withBot_sum (List.finRange m) (fun k => (X.map fun x => Real.log (gaussDensity 0
      (c.submatrix Subtype.val Subtype.val : Matrix (Fib f k) (Fib f k) ℝ) fun i => x i.1)).sum / X.length)
      (fun k => blockTerm L c X n (k * n)) (fun k _ => blockTerm_eq L n hn h X f (fun i => rfl) k) 0
  rw [WithBot.coe_zero, zero_add] at this
  rw [this]
  congr 1
  unfold meanLogLik
  simp only [log_density_blocks f h]
  rw [list_sum_finset, Finset.sum_div, ← List.ofFn_eq_map, List.sum_ofFn]

/-- C57: it equals LogLikelihood when `block_size >= p`, and when the estimate is zero outside the blocks. -/
theorem C57_block_full (b : ℤ) (hb : 1 ≤ b) (c : Matrix (Fin p) (Fin p) ℝ) (h : PD c) (X : List (Fin p → ℝ)) :
    ((p : ℤ) ≤ b → blockPseudoScore L b c X = .ok (logLikelihoodScore L c X)) ∧
    ((∀ i j : Fin p, i.1 / b.toNat ≠ j.1 / b.toNat → c i j = 0) → blockPseudoScore L b c X = .ok (logLikelihoodScore L c X)) := by
  have key : (∀ i j : Fin p, i.1 / b.toNat ≠ j.1 / b.toNat → c i j = 0) → blockPseudoScore L b c X = .ok (logLikelihoodScore L c X) := by
    intro h0
    rw [C57_block_is_block_diagonal L b hb c h X]
    congr 2
    ext i j
    rw [of_apply]
    split
    · rfl
    · exact (h0 i j (by assumption)).symm
  refine ⟨fun hp => key fun i j hij => ?_, key⟩
  have hi := i.2; have hj := j.2
  rw [Nat.div_eq_of_lt (by omega), Nat.div_eq_of_lt (by omega)] at hij
  exact absurd rfl hij

/-- C57: parameters outside the range: `block_size = 0` raises ValueError, a negative one scores every estimate 0. -/
theorem C57_block_bad_size (b : ℤ) (hb : b ≤ 0) (c : Matrix (Fin p) (Fin p) ℝ) (X : List (Fin p → ℝ)) :
    blockPseudoScore L b c X = if b = 0 then .error .valueError else .ok 0 := by
  unfold blockPseudoScore
  split
  · rfl
  · rw [if_pos (by omega)]

/-! ### SchurLikelihood -/

/-- C57: SchurLikelihood raises ValueError exactly when `n_blocks <= 0` (or there are no variables); otherwise it is the
mean log-density of the rows under a centred normal with some positive-definite covariance, hence finite, whatever the
estimate. -/
theorem C57_schur_finite (g : ℝ) (nB : ℤ) (interp : String) (c : Matrix (Fin p) (Fin p) ℝ) (X : List (Fin p → ℝ)) :
    ((nB ≤ 0 ∨ p = 0) → schurLikelihoodScore L g nB interp c X = .error .valueError) ∧
    (1 ≤ nB → 1 ≤ p → ∃ S, PD S ∧ schurLikelihoodScore L g nB interp c X = .ok ((meanLogLik 0 S X : ℝ) : WithBot ℝ)) := by
  constructor
  · intro h
    unfold schurLikelihoodScore schurNb?
    rw [if_pos (by omega)]; rfl
  · intro h1 h2
    unfold schurLikelihoodScore schurNb?
    rw [if_neg (by omega)]
    have key : ∀ m : Matrix (Fin p) (Fin p) ℝ, ∃ S, PD S ∧
        (Except.ok (gaussLoglik L (makePosDef L m) X) : Except PyErr (WithBot ℝ)) = .ok ((meanLogLik 0 S X : ℝ) : WithBot ℝ) :=
      fun m => ⟨_, pd_makePosDef L m (eps := 1 / 10 ^ 8) (by positivity),
        by rw [gaussLoglik_pd L (pd_makePosDef L m (eps := 1 / 10 ^ 8) (by positivity))]⟩
    exact key _

/-- C57: with `gamma = 1` SchurLikelihood is LogLikelihood of the estimate with its eigenvalues floored at 1e-8, hence
LogLikelihood itself when they are at least that; either interpolation, any number of blocks. -/
theorem C57_schur_one (nB : ℤ) (interp : String) (hn : 1 ≤ nB) (hp : 1 ≤ p) (c : Matrix (Fin p) (Fin p) ℝ) (X : List (Fin p → ℝ)) :
    schurLikelihoodScore L 1 nB interp c X = .ok (logLikelihoodScore L (makePosDef L c) X) ∧
    (Symm c → MinEigGE c (1 / 10 ^ 8) → schurLikelihoodScore L 1 nB interp c X = .ok (logLikelihoodScore L c X)) := by
  have key : schurLikelihoodScore L 1 nB interp c X = .ok (logLikelihoodScore L (makePosDef L c) X) := by
    unfold schurLikelihoodScore schurNb?
    rw [if_neg (by omega)]
    simp only [bind, Except.bind, pure, Except.pure]
    unfold logLikelihoodScore
    congr 2
    split
    · rw [(C37_endpoints_floored L _ _).2, C50_idempotent, C50_idempotent]
    · rw [dampCross_convex]; simp
  exact ⟨key, fun hs hm => by rw [key, (C50_identity L c _ hm).2 hs]⟩

/-- C57: linear interpolation: for an estimate with eigenvalues at least 1e-8 and `gamma` in [0,1], SchurLikelihood is
LogLikelihood of the estimate with the entries between blocks multiplied by `gamma`. -/
theorem C57_schur_linear (g : ℝ) (g0 : 0 ≤ g) (g1 : g ≤ 1) (nB : ℤ) (interp : String) (hi : interp ≠ "geodesic") (hn : 1 ≤ nB) (hp : 1 ≤ p)
    (c : Matrix (Fin p) (Fin p) ℝ) (hs : Symm c) (hm : MinEigGE c (1 / 10 ^ 8)) (X : List (Fin p → ℝ)) :
    schurLikelihoodScore L g nB interp c X = .ok (logLikelihoodScore L (damped (slices p (min nB p).toNat) g c) X) := by
  have hb : 1 ≤ schurNb nB p := by unfold schurNb; omega
  have hDc : dampCross (fun i : Fin p => blockId p (schurNb nB p) i) g c = g • c + (1 - g) • blockDiag p (schurNb nB p) c :=
    dampCross_convex _ _
  unfold schurLikelihoodScore schurNb?
  rw [if_neg (by omega)]
  simp only [bind, Except.bind, pure, Except.pure]
  rw [if_neg hi, show (min nB p).toNat = schurNb nB p from rfl, damped_eq hb]
  unfold logLikelihoodScore
  congr 2
  refine (C50_identity L _ _ ?_).2 ?_
  · intro x
    rw [hDc, quad_add, quad_smul, quad_smul]
    have h1 := hm x
    have h2 := blockDiag_minEig hb hs hm x
    nlinarith [mul_le_mul_of_nonneg_left h1 g0, mul_le_mul_of_nonneg_left h2 (show 0 ≤ 1 - g by linarith)]
  · rw [hDc]; exact (hs.smul _).add ((blockDiag_symm hs).smul _)

/-- C57: with `gamma = 0` SchurLikelihood (either interpolation) is LogLikelihood of the block-diagonal part (for an estimate with
eigenvalues at least 1e-8). -/
theorem C57_schur_zero (nB : ℤ) (interp : String) (hn : 1 ≤ nB) (hp : 1 ≤ p)
    (c : Matrix (Fin p) (Fin p) ℝ) (hs : Symm c) (hm : MinEigGE c (1 / 10 ^ 8)) (X : List (Fin p → ℝ)) :
    schurLikelihoodScore L 0 nB interp c X = .ok (logLikelihoodScore L (damped (slices p (min nB p).toNat) 0 c) X) := by
  by_cases hi : interp = "geodesic"
  · have hb : 1 ≤ schurNb nB p := by unfold schurNb; omega
    unfold schurLikelihoodScore schurNb?
    rw [if_neg (by omega)]
    simp only [bind, Except.bind, pure, Except.pure]
    rw [if_pos hi, show (min nB p).toNat = schurNb nB p from rfl, damped_eq hb, dampCross_zero]
    unfold logLikelihoodScore
    congr 2
    rw [(C37_endpoints_floored L _ _).1, C50_idempotent, C50_idempotent]
    exact (C50_identity L _ _ (blockDiag_minEig hb hs hm)).2 (blockDiag_symm hs)
  · exact C57_schur_linear L 0 le_rfl zero_le_one nB interp hi hn hp c hs hm X

/-- C57: the two block likelihoods agree: when the `n_blocks` blocks have the same size `b`, SchurLikelihood with
`gamma = 0` is BlockPseudoLikelihood with `block_size = b`. -/
theorem C57_schur_block_agree (nB b : ℕ) (interp : String) (hn : 1 ≤ nB) (hb : 1 ≤ b) (hpb : p = nB * b)
    (c : Matrix (Fin p) (Fin p) ℝ) (hs : Symm c) (hm : MinEigGE c (1 / 10 ^ 8)) (X : List (Fin p → ℝ)) :
    schurLikelihoodScore L 0 nB interp c X = blockPseudoScore L b c X := by
  have hp : nB ≤ p := by rw [hpb]; exact Nat.le_mul_of_pos_right _ hb
  rw [C57_schur_zero L nB interp (by omega) (by omega) c hs hm X, C57_block_is_block_diagonal L b (by omega) c (hm.pd hs (by positivity)) X]
  congr 2
  have hnb : (min (nB : ℤ) p).toNat = nB := by omega
  rw [hnb, damped_eq hn, dampCross_zero, Int.toNat_natCast]
  have hst : ∀ k, bstart p nB k = k * b := by
    intro k; unfold bstart; rw [hpb, Nat.mul_mod_right, Nat.mul_div_cancel_left _ (by omega)]; simp
  have hid : ∀ i : Fin p, blockId p nB i = i / b := by
    intro i
    have hlt : i.1 / b < nB := by rw [Nat.div_lt_iff_lt_mul (by omega), ← hpb]; exact i.2
    refine blockId_eq p nB i _ hn hlt ?_
    rw [hst, hst]
    have h1 := Nat.div_mul_le_self i.1 b
    have h2 := Nat.lt_div_mul_add (a := i.1) (b := b) (by omega)
    rw [add_mul, one_mul]
    exact ⟨h1, h2⟩
  ext i j
  simp only [blockDiag, of_apply, hid]
  by_cases h : i.1 / b = j.1 / b <;> simp [h]

-- the hypotheses hold for a correlated pair of variables in two blocks of one
example : Symm (!![2, 1; 1, 1] : Matrix (Fin 2) (Fin 2) ℝ) ∧ MinEigGE (!![2, 1; 1, 1] : Matrix (Fin 2) (Fin 2) ℝ) (1 / 10 ^ 8) ∧ 2 = 2 * 1 :=
  ⟨fun i j => by fin_cases i <;> fin_cases j <;> rfl, demo_minEig, rfl⟩

end Precise
