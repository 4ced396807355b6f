import Verif.Spec.Matrix
import Verif.Spec.Forgetting

/-!
# Specification vocabulary: what an estimator can be made to report
-/

namespace Precise.Spec

/-- Fed some batch of exactly `n` rows from new, the estimator reports `location_ = m` and `covariance_ = c`. -/
def ReportsAfter {ι : Type} [Fintype ι] [DecidableEq ι] (C : Cls ι ℝ) (p : C.Param) (n : ℕ) (m : ι → ℝ) (c : Matrix ι ι ℝ) : Prop :=
  ∃ rows : List (ι → ℝ), rows.length = n ∧ ((Obj.new C p).run [.partialFit (.batch rows)]).location = .ok m ∧
    ((Obj.new C p).run [.partialFit (.batch rows)]).covariance = .ok c

end Precise.Spec
