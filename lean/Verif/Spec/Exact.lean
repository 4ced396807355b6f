import Verif.Lemmas.Rounding

/-!
# Specification: factors that cost no rounding, and what they do to rows and matrices of floats
-/

set_option linter.all false

namespace Precise.Spec

variable {ι κ : Type} {R : Rounding}

/-- Multiplication by `w` commutes with rounding: true of `-1`, and of powers of two as long as nothing under- or overflows. -/
def Free (R : Rounding) (w : ℝ) : Prop := ∀ x, R.rnd (w * x) = w * R.rnd x

/-- The float `w * x`, exactly. -/
def times {w : ℝ} (hw : Free R w) (x : Fl R) : Fl R := ⟨w * x.val, by rw [hw]; exact congrArg _ x.2⟩

theorem Free.mul {v w : ℝ} (hv : Free R v) (hw : Free R w) : Free R (v * w) := fun x => by
  rw [mul_assoc, hv, hw, mul_assoc]

/-- The row whose `k`-th entry is `w k` times the entry `f k` of the given row: columns may be chosen, repeated,
re-ordered and multiplied by free factors. -/
def pick (f : κ → ι) {w : κ → ℝ} (hw : ∀ k, Free R (w k)) (x : ι → Fl R) : κ → Fl R := fun k => times (hw k) (x (f k))

/-- The same for a covariance matrix: entry `(k, l)` is `w k * w l` times entry `(f k, f l)`, exactly. -/
def pickMat (f : κ → ι) {w : κ → ℝ} (hw : ∀ k, Free R (w k)) (a : Matrix ι ι (Fl R)) : Matrix κ κ (Fl R) :=
  Matrix.of fun k l => times ((hw k).mul (hw l)) (a (f k) (f l))

end Precise.Spec
