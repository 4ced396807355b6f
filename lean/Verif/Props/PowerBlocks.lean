import Verif.Props.PowerOther

/-!
# C80 (continued): the block judges of `research/metric_power.py` and the shipped assessors
-/

set_option linter.all false

open Matrix

namespace Precise.Power
open Precise Spec Obj

variable {p : ℕ} (L : Lapack)

section General
variable {ι : Type} [Fintype ι] [DecidableEq ι]

theorem quad_damped (bid : ι → ℕ) (g : ℝ) (c : Matrix ι ι ℝ) (x : ι → ℝ) :
    quad (Matrix.of fun i j => if bid i ≠ bid j then c i j * g else c i j) x =
      g * quad c x + (1 - g) * ∑ k ∈ Finset.univ.image bid, quad c (fun i => if bid i = k then x i else 0) := by
  have e : ∑ k ∈ Finset.univ.image bid, quad c (fun i => if bid i = k then x i else 0) =
      ∑ i, ∑ j, (if bid i = bid j then x i * c i j * x j else 0) := by
    simp only [quad_expand]
    rw [Finset.sum_comm]
    refine Finset.sum_congr rfl fun i _ => ?_
    rw [Finset.sum_comm]
    refine Finset.sum_congr rfl fun j _ => ?_
    rw [Finset.sum_eq_single (bid i)]
    · by_cases h : bid i = bid j
      · simp [h]
      · simp [h, Ne.symm h]
    · intro k _ hk; simp [Ne.symm hk]
    · intro h; exact absurd (Finset.mem_image_of_mem bid (Finset.mem_univ i)) h
  rw [e, quad_expand, quad_expand, Finset.mul_sum, Finset.mul_sum, ← Finset.sum_add_distrib]
  refine Finset.sum_congr rfl fun i _ => ?_
  rw [Finset.mul_sum, Finset.mul_sum, ← Finset.sum_add_distrib]
  refine Finset.sum_congr rfl fun j _ => ?_
  simp only [of_apply]
  by_cases h : bid i = bid j <;> simp [h] <;> ring

theorem normSq_parts (bid : ι → ℕ) (x : ι → ℝ) :
    ∑ k ∈ Finset.univ.image bid, normSq (fun i => if bid i = k then x i else 0) = normSq x := by
  simp only [normSq]
  rw [Finset.sum_comm]
  refine Finset.sum_congr rfl fun i _ => ?_
  rw [Finset.sum_eq_single (bid i)]
  · simp
  · intro k _ hk; simp [Ne.symm hk]
  · intro h; exact absurd (Finset.mem_image_of_mem bid (Finset.mem_univ i)) h

/-- C80: the Schur judge. On a symmetric estimate with condition number at most 1000 and `gamma` in [0,1] the projection does nothing:
it is the log-likelihood of the estimate with its between-block entries multiplied by `gamma`; in particular `gamma = 1` is the plain
log-likelihood. Without the condition, `gamma = 1` is the log-likelihood of the *projected* estimate. -/
theorem C80_schur [Nonempty ι] (c : Matrix ι ι ℝ) (hs : Symm c) (xs : List (ι → ℝ)) (bid : ι → ℕ) :
    schurLoglik L c xs bid 1 = loglik (projectPd L c) xs ∧
    (∀ m : ℝ, MinEigGE c (m / 1000) → MaxEigLE c m →
      (∀ g, 0 ≤ g → g ≤ 1 → schurLoglik L c xs bid g = loglik (Matrix.of fun i j => if bid i = bid j then c i j else g * c i j) xs) ∧
      schurLoglik L c xs bid 1 = loglik c xs) := by
  have key : ∀ m : ℝ, MinEigGE c (m / 1000) → MaxEigLE c m → ∀ g, 0 ≤ g → g ≤ 1 →
      schurLoglik L c xs bid g = loglik (Matrix.of fun i j => if bid i = bid j then c i j else g * c i j) xs := by
    intro m h1 h2 g g0 g1
    have e : (Matrix.of fun i j => if bid i = bid j then c i j else g * c i j) = (Matrix.of fun i j => if bid i ≠ bid j then c i j * g else c i j) := by
      ext i j; simp only [of_apply]; by_cases h : bid i = bid j <;> simp [h, mul_comm]
    unfold schurLoglik
    rw [C79_id L (1 / 1000) m (by norm_num) ?_ ?_, toSymmetric_of_symm ?_, e]
    · intro i j
      simp only [of_apply, hs i j, ne_comm (a := bid i), eq_comm (a := bid i)]
    · intro x
      rw [quad_damped, ← normSq_parts bid x]
      have ha := h1 x
      rw [← normSq_parts bid x] at ha
      have hb : m / 1000 * ∑ k ∈ Finset.univ.image bid, normSq (fun i => if bid i = k then x i else 0) ≤
          ∑ k ∈ Finset.univ.image bid, quad c (fun i => if bid i = k then x i else 0) := by
        rw [Finset.mul_sum]; exact Finset.sum_le_sum fun k _ => h1 _
      nlinarith
    · intro x
      rw [quad_damped, ← normSq_parts bid x]
      have ha := h2 x
      rw [← normSq_parts bid x] at ha
      have hb : ∑ k ∈ Finset.univ.image bid, quad c (fun i => if bid i = k then x i else 0) ≤
          m * ∑ k ∈ Finset.univ.image bid, normSq (fun i => if bid i = k then x i else 0) := by
        rw [Finset.mul_sum]; exact Finset.sum_le_sum fun k _ => h2 _
      nlinarith
  refine ⟨?_, fun m h1 h2 => ⟨key m h1 h2, ?_⟩⟩
  · unfold schurLoglik
    congr 2
    ext i j; simp
  · rw [key m h1 h2 1 zero_le_one le_rfl]
    congr 1
    ext i j; simp

end General

theorem foldlM_ok {α : Type} (f : α → Except PyErr ℝ) (v : α → ℝ) (l : List α) (h : ∀ a ∈ l, f a = .ok (v a)) (z : ℝ) :
    l.foldlM (fun total a => do return total + (← f a)) z = (.ok (z + (l.map v).sum) : Except PyErr ℝ) := by
  induction l generalizing z with
  | nil => simp [pure, Except.pure]
  | cons a l ih =>
    rw [List.foldlM_cons, h a (by simp)]
    simp only [bind, Except.bind, pure, Except.pure] at ih ⊢
    rw [ih (fun b hb => h b (by simp [hb])) _]
    simp [add_assoc]

/-- C80: the log-likelihood judge is the shipped `LogLikelihood` up to the constant `p/2 log 2π`: the two rank alike. -/
theorem C80_loglik_is_shipped (c : Matrix (Fin p) (Fin p) ℝ) (h : PD c) (xs : List (Fin p → ℝ)) (hx : xs ≠ []) :
    ∃ v : ℝ, loglik c xs = .ok v ∧ logLikelihoodScore L c xs = ((v - p / 2 * Real.log (2 * Real.pi) : ℝ) : WithBot ℝ) := by
  refine ⟨_, loglik_pd h xs hx, ?_⟩
  rw [(C56_loglik_value L c xs).1 h, meanLogLik_zero_eq h xs hx]
  congr 1
  rw [Fintype.card_fin]
  ring

/-- C80: the block pseudo-likelihood judge is the shipped `BlockPseudoLikelihood` on every symmetric estimate with condition number at
most 1000 … -/
theorem C80_pseudo_is_shipped (c : Matrix (Fin p) (Fin p) ℝ) (hs : Symm c) (m : ℝ) (hm : 0 < m) (h1 : MinEigGE c (m / 1000))
    (h2 : MaxEigLE c m) (b : ℕ) (hb : 1 ≤ b) (xs : List (Fin p → ℝ)) :
    ∃ v : ℝ, blockPseudoLoglik L c xs b = .ok v ∧ blockPseudoScore L b c xs = .ok (v : WithBot ℝ) := by
  have hpd : PD c := h1.pd hs (by positivity)
  have hsub : ∀ s, s ∈ pyRangeStep p b → ∃ v : ℝ, pseudoTerm L c xs b s = .ok v ∧ blockTerm L c xs b s = (v : WithBot ℝ) := by
    intro s hsr
    have hp : s < p := by
      obtain ⟨k, hk, rfl⟩ := List.mem_map.1 hsr
      have := List.mem_range.1 hk
      have : k * b + b ≤ ((p + b - 1) / b) * b := by nlinarith
      have := Nat.div_mul_le_self (p + b - 1) b
      omega
    set e := min (s + b) p with he
    haveI : Nonempty (SliceIx p s e) := ⟨⟨⟨s, hp⟩, le_rfl, by simp only [he]; omega⟩⟩
    let c' : Matrix (SliceIx p s e) (SliceIx p s e) ℝ := c.submatrix Subtype.val Subtype.val
    have hpd' : PD c' := hpd.submatrix_inj Subtype.val Subtype.val_injective
    have sub_one : ∀ k : ℝ, ((c - k • 1).submatrix Subtype.val Subtype.val : Matrix (SliceIx p s e) (SliceIx p s e) ℝ) = c' - k • 1 := fun k => by
      ext i j
      simp [c', one_apply, Subtype.ext_iff]
    have hlo : MinEigGE c' (m / 1000) := fun x => by
      have := (psd_submatrix (a := c - (m / 1000) • 1) ⟨hs.sub (symm_one.smul _), fun y => by
        rw [quad_sub, quad_smul, quad_one]; linarith [h1 y]⟩ (Subtype.val : SliceIx p s e → Fin p)).2 x
      rw [sub_one, quad_sub, quad_smul, quad_one] at this
      linarith
    have hhi : MaxEigLE c' m := fun x => by
      have := (psd_submatrix (a := -(c - m • 1)) ⟨fun i j => by rw [Matrix.neg_apply, Matrix.neg_apply, (hs.sub (symm_one.smul m)) i j], fun y => by
        rw [quad_neg, quad_sub, quad_smul, quad_one]; linarith [h2 y]⟩ (Subtype.val : SliceIx p s e → Fin p)).2 x
      rw [submatrix_neg] at this
      simp only [Pi.neg_apply] at this
      rw [sub_one, quad_neg, quad_sub, quad_smul, quad_one] at this
      linarith
    have hid : projectPd L c' = c' := by
      rw [C79_id L (1 / 1000) m (by norm_num) ?_ ?_, toSymmetric_of_symm hpd'.1]
      · intro x; have := hlo x; linarith
      · exact hhi
    refine ⟨_, ?_, gaussLoglik_pd L hpd' _⟩
    unfold pseudoTerm
    simp only []
    rw [show projectPd L (c.submatrix Subtype.val Subtype.val : Matrix (SliceIx p s e) (SliceIx p s e) ℝ) = c' from hid,
      if_neg hpd'.det_pos.ne']
    congr 1
    unfold meanLogLik
    rw [List.map_map, List.length_map]
    congr 2
    refine List.map_congr_left fun x _ => ?_
    simp only [Function.comp]
    rw [log_gaussDensity 0 hpd', mahaRow_eq, sub_zero, abs_of_pos hpd'.det_pos]
    ring
  choose! v hv1 hv2 using hsub
  refine ⟨_, foldlM_ok _ v _ hv1 0, ?_⟩
  unfold blockPseudoScore
  rw [if_neg (by omega), if_neg (by omega)]
  rw [Int.toNat_natCast]
  congr 1
  exact foldl_withBot_sum _ v _ hv2 0

/-- C80: … so that `block_size ≥ p` is then the full log-likelihood (up to the constant `p/2 log 2π`), as its documentation says. -/
theorem C80_pseudo_full (c : Matrix (Fin p) (Fin p) ℝ) (hs : Symm c) (m : ℝ) (hm : 0 < m) (h1 : MinEigGE c (m / 1000))
    (h2 : MaxEigLE c m) (b : ℕ) (hb : p ≤ b) (hb1 : 1 ≤ b) (xs : List (Fin p → ℝ)) (hx : xs ≠ []) :
    ∃ v : ℝ, loglik c xs = .ok v ∧ blockPseudoLoglik L c xs b = .ok (v - p / 2 * Real.log (2 * Real.pi)) := by
  have hpd : PD c := h1.pd hs (by positivity)
  obtain ⟨v, e1, e2⟩ := C80_loglik_is_shipped L c hpd xs hx
  obtain ⟨u, f1, f2⟩ := C80_pseudo_is_shipped L c hs m hm h1 h2 b hb1 xs
  refine ⟨v, e1, ?_⟩
  have := Except.ok.inj (f2.symm.trans ((C57_block_full L b (by omega) c hpd xs).1 (by exact_mod_cast hb)))
  rw [e2] at this
  rw [f1, WithBot.coe_inj.1 this]

/-- Non-vacuity: the correlated matrix `[[2,1],[1,2]]` (eigenvalues 1 and 3) meets the condition, and its two one-variable blocks score as
the shipped assessor does. -/
example : ∃ v : ℝ, blockPseudoLoglik L (!![2, 1; 1, 2] : Matrix (Fin 2) (Fin 2) ℝ) [![1, 0]] 1 = .ok v ∧
    blockPseudoScore L 1 (!![2, 1; 1, 2] : Matrix (Fin 2) (Fin 2) ℝ) [![1, 0]] = .ok (v : WithBot ℝ) := by
  refine C80_pseudo_is_shipped L _ (fun i j => by fin_cases i <;> fin_cases j <;> rfl) 3 (by norm_num) (fun x => ?_) (fun x => ?_) 1 le_rfl _
  · rw [quad_expand]
    simp only [normSq, Fin.sum_univ_two]
    simp
    nlinarith [sq_nonneg (x 0 + x 1), sq_nonneg (x 0), sq_nonneg (x 1)]
  · rw [quad_expand]
    simp only [normSq, Fin.sum_univ_two]
    simp
    nlinarith [sq_nonneg (x 0 - x 1)]

end Precise.Power
