import Verif.Model.Cost
import Verif.Props.StateSize
import Verif.Lemmas.Blocks

/-!
# C124: a constant amount of work per observation

README.md:33: "a constant amount of work per observation"; `factor.py:3-12`: `O(d k)` per step; `block_covariance.py:1-15`: `O(p b)` work
for blocks of size `b`. The counted updates of `Model/Cost.lean` compute the same states as the exact model, and their operation counts
are bounded by a number that depends on the shape only, never on the history.
-/

set_option linter.all false

namespace Precise

open Spec Obj Tick

variable {ι K : Type} [Fintype ι]

theorem Tick.val_bind {α β : Type} (t : Tick α) (f : α → Tick β) : (t >>= f).val = (f t.val).val := rfl
theorem Tick.ops_bind {α β : Type} (t : Tick α) (f : α → Tick β) : (t >>= f).ops = t.ops + (f t.val).ops := rfl
theorem Tick.val_pure {α : Type} (a : α) : (pure a : Tick α).val = a := rfl
theorem Tick.ops_pure {α : Type} (a : α) : (pure a : Tick α).ops = 0 := rfl

/-- Specification: the operations a whole stream costs, update after update. -/
def streamOps {S : Type} (upd : S → (ι → K) → Tick S) : S → List (ι → K) → ℕ
  | _, [] => 0
  | s, x :: xs => (upd s x).ops + streamOps upd (upd s x).val xs

theorem empUpdateT_val [Field K] (s : EmpState ι K) (x : ι → K) : (empUpdateT s x).val = empUpdate s x := by
  rfl

theorem empUpdateT_ops [Field K] (s : EmpState ι K) (x : ι → K) :
    (empUpdateT s x).ops = 4 * Fintype.card ι ^ 2 + 5 * Fintype.card ι + 2 := by
  simp only [empUpdateT, Tick.ops_bind, Tick.ops_pure, scalar, vec, mat]
  ring

theorem ewaBlendT_val [Field K] (r : K) (s : EmpState ι K) (x : ι → K) : (ewaBlendT r s x).val = ewaBlend r s x := by
  rfl

theorem ewaBlendT_ops [Field K] (r : K) (s : EmpState ι K) (x : ι → K) :
    (ewaBlendT r s x).ops = 4 * Fintype.card ι ^ 2 + 4 * Fintype.card ι + 3 := by
  simp only [ewaBlendT, Tick.ops_bind, Tick.ops_pure, scalar, vec, mat]
  ring

theorem ewaUpdateT_val [Field K] (s : EwaState ι K) (x : ι → K) : (ewaUpdateT s x).val = ewaUpdate s x := by
  unfold ewaUpdateT ewaUpdate
  simp only [Tick.val_bind, scalar, decide_eq_true_eq]
  split
  · rfl
  · rfl

theorem ewaUpdateT_ops [Field K] (s : EwaState ι K) (x : ι → K) :
    (ewaUpdateT s x).ops ≤ 4 * Fintype.card ι ^ 2 + 5 * Fintype.card ι + 4 := by
  unfold ewaUpdateT
  simp only [Tick.ops_bind, scalar, decide_eq_true_eq]
  split
  · simp only [Tick.ops_bind, Tick.ops_pure, empUpdateT_ops]; omega
  · simp only [Tick.ops_bind, Tick.ops_pure, ewaBlendT_ops]; omega

theorem diagUpdateT_val [Field K] (s : DiagState ι K) (x : ι → K) : (diagUpdateT s x).val = diagUpdate s x := by
  unfold diagUpdateT diagUpdate
  simp only [Tick.val_bind, scalar, vec, decide_eq_true_eq]
  split
  · rfl
  · rfl

theorem diagUpdateT_ops [Field K] (s : DiagState ι K) (x : ι → K) : (diagUpdateT s x).ops ≤ 8 * Fintype.card ι + 4 := by
  unfold diagUpdateT
  simp only [Tick.ops_bind, scalar, vec, decide_eq_true_eq]
  split
  · simp only [Tick.ops_bind, Tick.ops_pure]; omega
  · simp only [Tick.ops_bind, Tick.ops_pure]; omega

theorem factorLoopT_val (lr : ℝ) (V : List (ι → ℝ)) : ∀ u, (factorLoopT lr V u).val = factorLoop lr V u := by
  induction V with
  | nil => intro u; rfl
  | cons v vs ih =>
    intro u
    unfold factorLoopT factorLoop
    simp only [Tick.val_bind, scalar, vec, Tick.norm, Tick.dot, decide_eq_true_eq]
    split
    · rfl
    · simp only [Tick.val_bind, Tick.val_pure, ih]

theorem factorLoopT_ops (lr : ℝ) (V : List (ι → ℝ)) : ∀ u, (factorLoopT lr V u).ops ≤ V.length * (10 * Fintype.card ι + 4) := by
  induction V with
  | nil => intro u; simp [factorLoopT, Tick.ops_pure]
  | cons v vs ih =>
    intro u
    unfold factorLoopT
    simp only [Tick.ops_bind, scalar, vec, Tick.norm, Tick.dot, decide_eq_true_eq, List.length_cons, add_mul, one_mul]
    split
    · simp only [Tick.ops_bind, Tick.ops_pure]; omega
    · have := ih (fun i => u i - (∑ i, u i * (v i / vecNorm v)) * (v i / vecNorm v))
      simp only [Tick.ops_bind, Tick.ops_pure]
      omega

theorem factorUpdateT_val (s : FactorState ι) (x : ι → ℝ) : (factorUpdateT s x).val = factorUpdate s x := by
  unfold factorUpdateT factorUpdate
  simp only [Tick.val_bind, Tick.val_pure, scalar, vec, decide_eq_true_eq]
  split
  · simp only [Tick.val_bind, Tick.val_pure, factorLoopT_val]
  · simp only [Tick.val_bind, Tick.val_pure, factorLoopT_val]

theorem factorUpdateT_ops (s : FactorState ι) (x : ι → ℝ) :
    (factorUpdateT s x).ops ≤ (11 * s.V.length + 9) * Fintype.card ι + 4 * s.V.length + 4 := by
  unfold factorUpdateT
  simp only [Tick.ops_bind, Tick.ops_pure, scalar, vec, decide_eq_true_eq]
  have key := fun lr => factorLoopT_ops lr s.V (fun i => x i - s.mean i)
  generalize hN : Fintype.card ι = N at *
  split
  · simp only [Tick.ops_bind, Tick.ops_pure]
    have := key (1 / ((s.nSamples + 1 : ℕ) : ℝ))
    simp only [Tick.val_bind, Tick.val_pure]
    nlinarith
  · simp only [Tick.ops_bind, Tick.ops_pure]
    have := key s.r
    simp only [Tick.val_bind, Tick.val_pure]
    nlinarith

theorem blockUpdateT_val {p : ℕ} (s : BlockState p) (x : Fin p → ℝ) : (blockUpdateT s x).val = blockUpdate s x := by
  unfold blockUpdateT blockUpdate
  simp only [Tick.val_bind, Tick.val_pure, scalar, Tick.all]
  congr 1
  funext k
  exact ewaUpdateT_val _ _

theorem card_blockIx (p nb k : ℕ) (h : 1 ≤ nb) (hk : k < nb) : Fintype.card (BlockIx p nb k) = bstart p nb (k + 1) - bstart p nb k := by
  have hle : bstart p nb (k + 1) ≤ p := (bstart_mono p nb (by omega : k + 1 ≤ nb)).trans (bstart_last p nb h).le
  have hm := bstart_mono p nb (by omega : k ≤ k + 1)
  rw [← Fintype.card_fin (bstart p nb (k + 1) - bstart p nb k)]
  refine Fintype.card_congr ?_
  have hs := slices_getD p nb k h hk
  refine ⟨fun i => ⟨i.1.1 - bstart p nb k, ?_⟩, fun j => ⟨⟨bstart p nb k + j.1, ?_⟩, ?_⟩, ?_, ?_⟩
  · obtain ⟨i, a, b⟩ := i; rw [hs] at a b; simp only [] at a b ⊢; omega
  · have := j.2; omega
  · have := j.2; rw [hs]; simp only []; omega
  · rintro ⟨i, hi⟩
    rw [hs] at hi
    simp only [] at hi
    apply Subtype.ext
    apply Fin.ext
    simp only []
    omega
  · rintro ⟨j, hj⟩
    apply Fin.ext
    simp only []
    omega

theorem sum_card_blockIx (p nb : ℕ) (h : 1 ≤ nb) : ∑ k : Fin nb, Fintype.card (BlockIx p nb k) = p := by
  have : ∀ k : Fin nb, Fintype.card (BlockIx p nb k) = bstart p nb (k + 1) - bstart p nb k := fun k => card_blockIx p nb k h k.2
  rw [Finset.sum_congr rfl fun k _ => this k, Fin.sum_univ_eq_sum_range (fun k => bstart p nb (k + 1) - bstart p nb k) nb,
    Finset.sum_range_tsub (fun a b hab => bstart_mono p nb hab), bstart_last p nb h, bstart_zero]
  omega

theorem card_blockIx_le (p nb k : ℕ) (h : 1 ≤ nb) (hk : k < nb) : Fintype.card (BlockIx p nb k) ≤ p / nb + 1 := by
  rw [card_blockIx p nb k h hk, bstart_succ]
  generalize p / nb = q
  split <;> omega

theorem blockUpdateT_ops {p : ℕ} (s : BlockState p) (x : Fin p → ℝ) (h : 1 ≤ s.nb) :
    (blockUpdateT s x).ops ≤ (4 * (p / s.nb + 1) + 5) * p + 4 * s.nb + 1 := by
  unfold blockUpdateT
  simp only [Tick.ops_bind, Tick.ops_pure, Tick.all, scalar]
  have key : ∑ k : Fin s.nb, (ewaUpdateT (s.subs k) fun i => x i.1).ops ≤
      ∑ k : Fin s.nb, ((4 * (p / s.nb + 1) + 5) * Fintype.card (BlockIx p s.nb k) + 4) := by
    refine Finset.sum_le_sum fun k _ => (ewaUpdateT_ops _ _).trans ?_
    have := card_blockIx_le p s.nb k h k.2
    nlinarith
  rw [Finset.sum_add_distrib, ← Finset.mul_sum, sum_card_blockIx p s.nb h] at key
  simp only [Finset.sum_const, Finset.card_univ, Fintype.card_fin, smul_eq_mul] at key
  omega

/-! ## The claims -/

theorem streamOps_le {S : Type} (upd : S → (ι → K) → Tick S) (Inv : S → Prop) (B : ℕ) (hs : ∀ s x, Inv s → Inv (upd s x).val)
    (hB : ∀ s x, Inv s → (upd s x).ops ≤ B) (xs : List (ι → K)) : ∀ s, Inv s → streamOps upd s xs ≤ B * xs.length := by
  induction xs with
  | nil => intro s _; simp [streamOps]
  | cons x xs ih =>
    intro s h
    have a := hB s x h
    have b := ih _ (hs s x h)
    simp only [streamOps, List.length_cons, mul_add, mul_one]
    omega

/-- C124: EmpiricalCovariance spends exactly `4 d² + 5 d + 2` operations on every observation, in whatever state it is: a stream of `n`
rows costs `n` times that. -/
theorem C124_empirical [Field K] (s : EmpState ι K) (xs : List (ι → K)) :
    (∀ x, (empUpdateT s x).val = empUpdate s x) ∧
    streamOps empUpdateT s xs = (4 * Fintype.card ι ^ 2 + 5 * Fintype.card ι + 2) * xs.length := by
  refine ⟨empUpdateT_val s, ?_⟩
  induction xs generalizing s with
  | nil => simp [streamOps]
  | cons x xs ih => rw [streamOps, ih, empUpdateT_ops, List.length_cons]; ring

/-- C124: EwaCovariance spends at most `4 d² + 5 d + 4` operations on every observation, in whatever state it is. -/
theorem C124_ewa [Field K] (s : EwaState ι K) (xs : List (ι → K)) :
    (∀ x, (ewaUpdateT s x).val = ewaUpdate s x) ∧
    (∀ x, (ewaUpdateT s x).ops ≤ 4 * Fintype.card ι ^ 2 + 5 * Fintype.card ι + 4) ∧
    streamOps ewaUpdateT s xs ≤ (4 * Fintype.card ι ^ 2 + 5 * Fintype.card ι + 4) * xs.length :=
  ⟨ewaUpdateT_val s, ewaUpdateT_ops s, streamOps_le ewaUpdateT (fun _ => True) _ (fun _ _ _ => trivial) (fun s x _ => ewaUpdateT_ops s x) xs s trivial⟩

/-- C124: DiagonalCovariance spends at most `8 d + 4` operations on every observation: linear in the number of variables. -/
theorem C124_diagonal [Field K] (s : DiagState ι K) (xs : List (ι → K)) :
    (∀ x, (diagUpdateT s x).val = diagUpdate s x) ∧
    (∀ x, (diagUpdateT s x).ops ≤ 8 * Fintype.card ι + 4) ∧
    streamOps diagUpdateT s xs ≤ (8 * Fintype.card ι + 4) * xs.length :=
  ⟨diagUpdateT_val s, diagUpdateT_ops s, streamOps_le diagUpdateT (fun _ => True) _ (fun _ _ _ => trivial) (fun s x _ => diagUpdateT_ops s x) xs s trivial⟩

/-- C124: FactorCovariance with parameter `k` spends, after any history, at most `(11 k' + 9) d + 4 k' + 4` operations on an observation,
where `k' = min k d`: `O(d k)`, and nothing of order `d²`. -/
theorem C124_factor [DecidableEq ι] (pr : FactorParam) (calls : List (Call ι ℝ)) (s : FactorState ι)
    (h : ((Obj.new (factorCls ι) pr).run calls).state = some s) (x : ι → ℝ) :
    (factorUpdateT s x).val = factorUpdate s x ∧
    (factorUpdateT s x).ops ≤ (11 * min pr.k (Fintype.card ι) + 9) * Fintype.card ι + 4 * min pr.k (Fintype.card ι) + 4 := by
  refine ⟨factorUpdateT_val s x, ?_⟩
  have hV : s.V.length = min pr.k (Fintype.card ι) := by
    refine state_inv (C := factorCls ι) pr (fun s : FactorState ι => s.V.length = min pr.k (Fintype.card ι)) ?_ ?_ calls s h
    · simp [factorCls, factorInit]
    · intro s x hs
      change (factorUpdate s x).V.length = _
      unfold factorUpdate
      simp only []
      rw [(factorLoop_facts _ s.V _).1, hs]
  rw [← hV]
  exact factorUpdateT_ops s x

/-- C124: a stream of rows given to a new FactorCovariance costs at most the same bound times its length. -/
theorem C124_factor_stream [DecidableEq ι] (pr : FactorParam) (xs : List (ι → ℝ)) :
    streamOps factorUpdateT (factorInit pr) xs ≤
      ((11 * min pr.k (Fintype.card ι) + 9) * Fintype.card ι + 4 * min pr.k (Fintype.card ι) + 4) * xs.length := by
  refine streamOps_le factorUpdateT (fun s : FactorState ι => s.V.length = min pr.k (Fintype.card ι)) _ ?_ ?_ xs _ (by simp [factorInit])
  · intro s x hs
    rw [factorUpdateT_val]
    unfold factorUpdate
    simp only []
    rw [(factorLoop_facts _ s.V _).1, hs]
  · intro s x hs
    rw [← hs]
    exact factorUpdateT_ops s x

/-- C124: BlockCovariance over `p ≥ 1` variables and `nb` blocks (`n_blocks` clamped to `1 .. p`) spends, after any history, at most
`(4 b + 5) p + 4 nb + 1` operations on an observation, where `b = ⌊p / nb⌋ + 1` bounds the size of a block: `O(p b)`. -/
theorem C124_block (L : Lapack) (p : ℕ) (hp : 1 ≤ p) (pr : BlockParam) (calls : List (Call (Fin p) ℝ)) (s : BlockState p)
    (h : ((Obj.new (blockCls L p) pr).run calls).state = some s) (x : Fin p → ℝ) :
    (blockUpdateT s x).val = blockUpdate s x ∧
    (blockUpdateT s x).ops ≤ (4 * (p / nbClamped pr.nBlocks p + 1) + 5) * p + 4 * nbClamped pr.nBlocks p + 1 := by
  refine ⟨blockUpdateT_val s x, ?_⟩
  have hnb : s.nb = nbClamped pr.nBlocks p :=
    state_inv (C := blockCls L p) pr (fun s : BlockState p => s.nb = nbClamped pr.nBlocks p) rfl (fun s x hs => hs) calls s h
  rw [← hnb]
  exact blockUpdateT_ops s x (by rw [hnb]; exact nbClamped_pos _ _ hp)

/-- C124: the blocks are what makes it cheap: with one block the update of BlockCovariance costs at least `4 p²` operations, and with `p`
blocks at most `17 p + 1`. -/
theorem C124_block_contrast (L : Lapack) (p : ℕ) (hp : 1 ≤ p) (r : ℝ) (diff : Bool) (calls : List (Call (Fin p) ℝ)) (x : Fin p → ℝ)
    (one many : BlockState p) (h1 : ((Obj.new (blockCls L p) ⟨r, 1, diff⟩).run calls).state = some one)
    (hp' : ((Obj.new (blockCls L p) ⟨r, p, diff⟩).run calls).state = some many) :
    4 * p ^ 2 ≤ (blockUpdateT one x).ops ∧ (blockUpdateT many x).ops ≤ 17 * p + 1 := by
  constructor
  · have hnb : one.nb = 1 := by
      have := state_inv (C := blockCls L p) (⟨r, 1, diff⟩ : BlockParam) (fun s : BlockState p => s.nb = nbClamped 1 p) rfl (fun s x hs => hs) calls one h1
      rw [this]; unfold nbClamped; omega
    obtain ⟨n, r', b, nb, subs⟩ := one
    subst hnb
    unfold blockUpdateT
    simp only [Tick.ops_bind, Tick.ops_pure, Tick.all, scalar, Fin.sum_univ_one, Fin.val_zero]
    have hc : Fintype.card (BlockIx p 1 0) = p := by
      rw [card_blockIx p 1 0 le_rfl (by omega), bstart_zero, bstart_last p 1 le_rfl]; omega
    have : ∀ (s : EwaState (BlockIx p 1 0) ℝ) y, 4 * p ^ 2 ≤ (ewaUpdateT s y).ops := by
      intro s y
      unfold ewaUpdateT
      simp only [Tick.ops_bind, scalar, decide_eq_true_eq]
      split
      · simp only [Tick.ops_bind, Tick.ops_pure, empUpdateT_ops, hc]; omega
      · simp only [Tick.ops_bind, Tick.ops_pure, ewaBlendT_ops, hc]; omega
    exact (this _ _).trans (Nat.le_add_right _ _)
  · have := (C124_block L p hp ⟨r, p, diff⟩ calls many hp' x).2
    have e : nbClamped (p : ℤ) p = p := by unfold nbClamped; omega
    simp only [e, Nat.div_self hp] at this
    omega

/-- Non-vacuity: a FactorCovariance with two factors over 100 variables has seen two rows: the next one costs at most 3112 operations
(a dense `100 × 100` update would need at least 40000). -/
example (y : Fin 100 → ℝ) : ∃ s, ((Obj.new (factorCls (Fin 100)) ⟨2, 1 / 20, false⟩).run [.partialFit (.batch [fun _ => 1, fun _ => 2])]).state = some s ∧
    (factorUpdateT s y).ops ≤ 3112 ∧
    40000 ≤ streamOps empUpdateT (empInit : EmpState (Fin 100) ℝ) [y] := by
  have : ∃ s, ((Obj.new (factorCls (Fin 100)) ⟨2, 1 / 20, false⟩).run [.partialFit (.batch [fun _ => 1, fun _ => 2])]).state = some s := ⟨_, rfl⟩
  obtain ⟨s, hs⟩ := this
  refine ⟨s, hs, ?_, ?_⟩
  · have := (C124_factor _ _ s hs y).2
    simpa using this
  · rw [(C124_empirical _ _).2]; simp

end Precise
