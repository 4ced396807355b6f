import Verif.Lemmas.Blocks
import Verif.Lemmas.Reduce
import Verif.Lemmas.Linalg

/-! Block-diagonal matrices assembled from contiguous blocks. -/

set_option linter.all false

open Matrix

namespace Precise

open Spec

variable {p nb : ℕ}

theorem foldl_assign' {α β : Type} (l : List α) (P : α → Prop) [DecidablePred P] (g : (a : α) → P a → β) (acc : β) :
    (∀ v, (∀ a ∈ l, ∀ h : P a, g a h = v) → (∃ a ∈ l, P a) → l.foldl (fun acc a => if h : P a then g a h else acc) acc = v) ∧
    ((∀ a ∈ l, ¬ P a) → l.foldl (fun acc a => if h : P a then g a h else acc) acc = acc) := by
  induction l using List.reverseRecOn with
  | nil => simp
  | append_singleton l a ih =>
    rw [List.foldl_append]
    simp only [List.foldl_cons, List.foldl_nil]
    constructor
    · intro v hv h
      by_cases ha : P a
      · rw [dif_pos ha]; exact hv a (by simp) ha
      · rw [dif_neg ha]
        refine ih.1 v (fun b hb => hv b (by simp [hb])) ?_
        obtain ⟨b, hb, hpb⟩ := h
        rcases List.mem_append.1 hb with hb | hb
        · exact ⟨b, hb, hpb⟩
        · simp only [List.mem_singleton] at hb; subst hb; exact absurd hpb ha
    · intro h
      rw [dif_neg (h a (by simp))]
      exact ih.2 fun b hb => h b (by simp [hb])

/-- membership of a variable in block `k` -/
abbrev InBlock (p nb k : ℕ) (i : Fin p) : Prop :=
  ((slices p nb).getD k (0, 0)).1 ≤ i.1 ∧ i.1 < ((slices p nb).getD k (0, 0)).2

theorem blockAssemble_fold (f : (k : Fin nb) → Matrix (BlockIx p nb k) (BlockIx p nb k) ℝ) (i j : Fin p) (l : List (Fin nb))
    (acc : Matrix (Fin p) (Fin p) ℝ) :
    (l.foldl (fun out (k : Fin nb) => Matrix.of fun i j =>
      if h : (((slices p nb).getD k (0, 0)).1 ≤ i.1 ∧ i.1 < ((slices p nb).getD k (0, 0)).2) ∧
        (((slices p nb).getD k (0, 0)).1 ≤ j.1 ∧ j.1 < ((slices p nb).getD k (0, 0)).2)
      then f k ⟨i, h.1⟩ ⟨j, h.2⟩ else out i j) acc) i j
    = l.foldl (fun (o : ℝ) (k : Fin nb) => if h : InBlock p nb k i ∧ InBlock p nb k j then f k ⟨i, h.1⟩ ⟨j, h.2⟩ else o) (acc i j) := by
  induction l generalizing acc with
  | nil => rfl
  | cons k l ih => rw [List.foldl_cons, List.foldl_cons, ih]; rfl

theorem inBlock_unique (hb : 1 ≤ nb) {i : Fin p} {k l : Fin nb} (hk : InBlock p nb k i) (hl : InBlock p nb l i) : k = l := by
  have h1 := (blockId_iff p nb i k hb i.2 k.2).1 hk
  have h2 := (blockId_iff p nb i l hb i.2 l.2).1 hl
  exact Fin.ext (h1.symm.trans h2)

theorem exists_inBlock (hb : 1 ≤ nb) (i : Fin p) : ∃ k : Fin nb, InBlock p nb k i :=
  ⟨⟨blockId p nb i, (blockId_mem p nb i hb i.2).1⟩, (blockId_iff p nb i _ hb i.2 (blockId_mem p nb i hb i.2).1).2 rfl⟩

theorem blockAssemble_in (hb : 1 ≤ nb) (f : (k : Fin nb) → Matrix (BlockIx p nb k) (BlockIx p nb k) ℝ) (k : Fin nb)
    (i j : BlockIx p nb k) : blockAssemble f i.1 j.1 = f k i j := by
  unfold blockAssemble
  rw [blockAssemble_fold]
  refine (foldl_assign' (List.finRange nb) (fun k : Fin nb => InBlock p nb k i.1 ∧ InBlock p nb k j.1)
    (fun k h => f k ⟨i.1, h.1⟩ ⟨j.1, h.2⟩) _).1 _ ?_ ⟨k, List.mem_finRange k, i.2, j.2⟩
  intro l _ h
  obtain rfl := inBlock_unique hb i.2 h.1
  rfl

theorem blockAssemble_out (hb : 1 ≤ nb) (f : (k : Fin nb) → Matrix (BlockIx p nb k) (BlockIx p nb k) ℝ) (i j : Fin p)
    (h : ∀ k : Fin nb, ¬ (InBlock p nb k i ∧ InBlock p nb k j)) : blockAssemble f i j = 0 := by
  unfold blockAssemble
  rw [blockAssemble_fold]
  exact (foldl_assign' (List.finRange nb) (fun k : Fin nb => InBlock p nb k i ∧ InBlock p nb k j)
    (fun k h => f k ⟨i, h.1⟩ ⟨j, h.2⟩) _).2 fun k _ => h k

theorem blockAssembleVec_fold (f : (k : Fin nb) → BlockIx p nb k → ℝ) (i : Fin p) (l : List (Fin nb)) (acc : Fin p → ℝ) :
    (l.foldl (fun out (k : Fin nb) => fun i =>
      if h : ((slices p nb).getD k (0, 0)).1 ≤ i.1 ∧ i.1 < ((slices p nb).getD k (0, 0)).2
      then f k ⟨i, h⟩ else out i) acc) i
    = l.foldl (fun (o : ℝ) (k : Fin nb) => if h : InBlock p nb k i then f k ⟨i, h⟩ else o) (acc i) := by
  induction l generalizing acc with
  | nil => rfl
  | cons k l ih => rw [List.foldl_cons, List.foldl_cons, ih]

theorem blockAssembleVec_in (hb : 1 ≤ nb) (f : (k : Fin nb) → BlockIx p nb k → ℝ) (k : Fin nb) (i : BlockIx p nb k) :
    blockAssembleVec f i.1 = f k i := by
  unfold blockAssembleVec
  rw [blockAssembleVec_fold]
  refine (foldl_assign' (List.finRange nb) (fun k : Fin nb => InBlock p nb k i.1)
    (fun k h => f k ⟨i.1, h⟩) _).1 _ ?_ ⟨k, List.mem_finRange k, i.2⟩
  intro l _ h
  obtain rfl := inBlock_unique hb i.2 h
  rfl

/-- the inclusion of block `k` -/
def incl (p nb k : ℕ) : Matrix (Fin p) (BlockIx p nb k) ℝ := Matrix.of fun i j => if i = j.1 then 1 else 0

theorem mul_incl {κ : Type} [Fintype κ] (a : Matrix κ (Fin p) ℝ) (k : ℕ) (i : κ) (j : BlockIx p nb k) : (a * incl p nb k) i j = a i j.1 := by
  simp [mul_apply, incl]

theorem incl_mul {κ : Type} [Fintype κ] (k : ℕ) (a : Matrix (BlockIx p nb k) κ ℝ) (i : Fin p) (j : κ) :
    (incl p nb k * a) i j = if h : InBlock p nb k i then a ⟨i, h⟩ j else 0 := by
  simp only [mul_apply, incl, of_apply]
  split
  · rename_i h
    rw [Finset.sum_eq_single (⟨i, h⟩ : BlockIx p nb k)]
    · simp
    · intro b _ hb; rw [if_neg (fun e => hb (Subtype.ext e.symm)), zero_mul]
    · intro hn; exact absurd (Finset.mem_univ _) hn
  · rename_i h
    refine Finset.sum_eq_zero fun b _ => ?_
    rw [if_neg (fun e => h (by rw [e]; exact b.2)), zero_mul]

/-- A matrix is determined by its products with the block inclusions. -/
theorem ext_incl {κ : Type} [Fintype κ] (hb : 1 ≤ nb) {a b : Matrix κ (Fin p) ℝ} (h : ∀ k : Fin nb, a * incl p nb k = b * incl p nb k) : a = b := by
  ext i j
  obtain ⟨k, hk⟩ := exists_inBlock (nb := nb) hb j
  have := congrFun (congrFun (h k) i) ⟨j, hk⟩
  rwa [mul_incl, mul_incl] at this

theorem blockAssemble_incl (hb : 1 ≤ nb) (f : (k : Fin nb) → Matrix (BlockIx p nb k) (BlockIx p nb k) ℝ) (k : Fin nb) :
    blockAssemble f * incl p nb k = incl p nb k * f k := by
  ext i j
  rw [mul_incl, incl_mul]
  split
  · rename_i h; exact blockAssemble_in hb f k ⟨i, h⟩ j
  · rename_i h
    refine blockAssemble_out hb f i j fun l hl => h ?_
    obtain rfl := inBlock_unique hb hl.2 j.2
    exact hl.1

theorem blockAssemble_mul (hb : 1 ≤ nb) (f g : (k : Fin nb) → Matrix (BlockIx p nb k) (BlockIx p nb k) ℝ) :
    blockAssemble f * blockAssemble g = blockAssemble fun k => f k * g k :=
  ext_incl hb fun k => by
    rw [Matrix.mul_assoc, blockAssemble_incl hb, ← Matrix.mul_assoc, blockAssemble_incl hb, blockAssemble_incl hb, Matrix.mul_assoc]

theorem blockAssemble_one (hb : 1 ≤ nb) : (blockAssemble fun k : Fin nb => (1 : Matrix (BlockIx p nb k) (BlockIx p nb k) ℝ)) = 1 :=
  ext_incl hb fun k => by rw [blockAssemble_incl hb, Matrix.one_mul, Matrix.mul_one]

/-- the block-diagonal part of a matrix -/
def blockDiag (p nb : ℕ) (a : Matrix (Fin p) (Fin p) ℝ) : Matrix (Fin p) (Fin p) ℝ :=
  Matrix.of fun i j => if blockId p nb i ≠ blockId p nb j then 0 else a i j

theorem blockDiag_symm {a : Matrix (Fin p) (Fin p) ℝ} (h : Symm a) : Symm (blockDiag p nb a) := fun i j => by
  simp only [blockDiag, of_apply, ne_comm, h i j, eq_comm (a := blockId p nb i)]

theorem blockDiag_incl (hb : 1 ≤ nb) (a : Matrix (Fin p) (Fin p) ℝ) (k : Fin nb) :
    blockDiag p nb a * incl p nb k = incl p nb k * (a.submatrix Subtype.val Subtype.val : Matrix (BlockIx p nb k) (BlockIx p nb k) ℝ) := by
  ext i j
  rw [mul_incl, incl_mul]
  have hj := (blockId_iff p nb j.1 k hb j.1.2 k.2).1 j.2
  split
  · rename_i h
    have hi := (blockId_iff p nb i k hb i.2 k.2).1 h
    simp [blockDiag, hi, hj]
  · rename_i h
    have hi : blockId p nb i ≠ k := fun e => h ((blockId_iff p nb i k hb i.2 k.2).2 e)
    simp [blockDiag, hj, hi]

/-- Flooring the eigenvalues of a block-diagonal matrix floors those of each block. -/
theorem makePosDef_blockDiag (L : Lapack) (hb : 1 ≤ nb) {a : Matrix (Fin p) (Fin p) ℝ} (h : Symm a) (eps : ℝ) :
    makePosDef L (blockDiag p nb a) eps
      = blockAssemble fun k : Fin nb => makePosDef L (a.submatrix Subtype.val Subtype.val : Matrix (BlockIx p nb k) (BlockIx p nb k) ℝ) eps :=
  ext_incl hb fun k => by
    rw [blockAssemble_incl hb]
    exact makePosDef_intertwine L (fun i j => h i.1 j.1) (blockDiag_symm h) (incl p nb k) (blockDiag_incl hb a k) eps

theorem dampCross_zero (a : Matrix (Fin p) (Fin p) ℝ) : dampCross (fun i : Fin p => blockId p nb i) 0 a = blockDiag p nb a := by
  ext i j; simp [dampCross, blockDiag]

/-- A block-diagonal matrix with PSD blocks is PSD: the block-diagonal part of a PSD matrix. -/
theorem blockDiag_psd (hb : 1 ≤ nb) {a : Matrix (Fin p) (Fin p) ℝ} (h : PSD a) : PSD (blockDiag p nb a) := by
  refine ⟨blockDiag_symm h.1, fun x => ?_⟩
  have e : quad (blockDiag p nb a) x = ∑ k : Fin nb, quad a (fun i : Fin p => if blockId p nb i = (k : ℕ) then x i else 0) := by
    simp only [quad_expand]
    symm
    rw [Finset.sum_comm]
    refine Finset.sum_congr rfl fun i _ => ?_
    rw [Finset.sum_comm]
    refine Finset.sum_congr rfl fun j _ => ?_
    rw [Finset.sum_eq_single (⟨blockId p nb i, (blockId_mem p nb i hb i.2).1⟩ : Fin nb)]
    · by_cases hij : blockId p nb i = blockId p nb j
      · simp [blockDiag, hij]
      · simp [blockDiag, hij, Ne.symm hij]
    · intro k _ hk
      rw [if_neg (fun e => hk (Fin.ext e.symm))]; simp
    · intro hn; exact absurd (Finset.mem_univ _) hn
  rw [e]
  exact Finset.sum_nonneg fun k _ => h.2 _

/-- Damping is a convex combination of the matrix and its block-diagonal part. -/
theorem dampCross_convex (g : ℝ) (a : Matrix (Fin p) (Fin p) ℝ) :
    dampCross (fun i : Fin p => blockId p nb i) g a = g • a + (1 - g) • blockDiag p nb a := by
  ext i j
  by_cases h : blockId p nb i = blockId p nb j
  · simp [dampCross, blockDiag, h]; ring
  · simp [dampCross, blockDiag, h]; ring

end Precise
