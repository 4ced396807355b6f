import Verif.Model.Shapes
import Verif.Model.Linalg

/-!
# `mahalanobis` and `score` on rows of run-time length

The estimator has a fixed dimension `d` (its fitted attributes are `d`-vectors and `d × d` matrices); the rows
passed to `mahalanobis` and `score` have whatever length the caller gives them, and numpy's broadcasting applies.
-/

namespace Precise.Shapes

/-- The length of a broadcast axis (contract of numpy): equal lengths, or one of them 1 (used for `base.py:112`). -/
def axisLen (m n : ℕ) : Except PyErr ℕ :=
  if m = n then .ok m else if m = 1 then .ok n else if n = 1 then .ok m else .error .valueError

/-- Entry `i` of a broadcast axis: an axis of length 1 repeats its only entry (used for `base.py:112`). -/
def entry {α : Type} (z : α) (l : List α) (i : ℕ) : α := if l.length = 1 then l.getD 0 z else l.getD i z

/-- One row of `np.einsum("ij,jk,ik->i", centered, prec, centered)` (`base.py:113`). `np.einsum` matches the axes
of a label by broadcasting (contract of numpy: an axis of length 1 is repeated). -/
def einsumRow (c : List ℝ) (prec : List (List ℝ)) : Except PyErr ℝ := do
  let J ← axisLen c.length prec.length
  let N ← axisLen (prec.headD []).length c.length
  return ((List.range J).map fun j => ((List.range N).map fun k =>
    entry 0 c j * entry 0 (entry [] prec j) k * entry 0 c k).sum).sum

/-- The nested list of a square matrix: the array behind `precision_` (`base.py:100-102`). -/
def nested {d : ℕ} (M : Matrix (Fin d) (Fin d) ℝ) : List (List ℝ) := List.ofFn fun i => List.ofFn fun j => M i j

variable {d : ℕ} {C : Cls (Fin d) ℝ}

/-- `mahalanobis(X)` (`base.py:108-113`), rows of any length. -/
noncomputable def mahalanobisL (L : Lapack) (o : Obj C) (X : InputL ℝ) : Except PyErr (List ℝ) := do
  let rows ← asRowsL X                                                                    -- line 110
  let prec ← o.precision L                                                                -- line 111
  let loc ← o.location
  let centered ← rows.mapM fun x => vec2 (· - ·) x (List.ofFn loc)                        -- line 112
  centered.mapM fun c => einsumRow c (nested prec)                                        -- line 113

/-- `score(X)` (`base.py:115-123`), rows of any length: `p` is the width of the array that was passed. Simplification: the mean over zero rows is 0 as in `Obj.score`. -/
noncomputable def scoreL (L : Lapack) (o : Obj C) (X : InputL ℝ) : Except PyErr (WithBot ℝ) := do
  let rows ← asRowsL X                                                                    -- line 117
  let prec ← o.precision L                                                                -- line 118
  let p := (rows.headD []).length                                                         -- line 120
  let quad ← mahalanobisL L o (.batch rows)                                               -- line 121
  return (Obj.logAbsDet prec).map fun logdet =>                                           -- line 119
    (quad.map fun q => (1/2) * logdet - (1/2) * q - (1/2) * (p : ℝ) * Real.log (2 * Real.pi)).sum
      / (quad.length : ℝ)                                                                 -- lines 122-123

end Precise.Shapes
