import Verif.Spec.Matrix
import Verif.Spec.Forgetting
import Mathlib.Analysis.Real.Sqrt

/-!
# Specification vocabulary: weighted sums of two histories
-/

namespace Precise.Spec

/-- Two histories of the same length added row by row, with weights `s` and `t`. -/
def blend {ι : Type} (s t : ℝ) (xs ys : List (ι → ℝ)) : List (ι → ℝ) := List.zipWith (fun x y i => s * x i + t * y i) xs ys

/-- What an estimator reports on blends of two histories: `location_` is the blend of the two locations; `covariance_` is a quadratic polynomial in the weights. -/
def Superposes {ι : Type} [Fintype ι] [DecidableEq ι] (C : Cls ι ℝ) (p : C.Param) : Prop :=
  ∀ (cx cy : List (Call ι ℝ)), (used (C.diff p) cx).length = (used (C.diff p) cy).length → used (C.diff p) cx ≠ [] →
    ∃ (mx my : ι → ℝ) (Cx Cy B : Matrix ι ι ℝ), ((Obj.new C p).run cx).location = .ok mx ∧ ((Obj.new C p).run cy).location = .ok my ∧
      ((Obj.new C p).run cx).covariance = .ok Cx ∧ ((Obj.new C p).run cy).covariance = .ok Cy ∧ Symm B ∧
      ∀ (s t : ℝ) (cz : List (Call ι ℝ)), used (C.diff p) cz = blend s t (used (C.diff p) cx) (used (C.diff p) cy) →
        ((Obj.new C p).run cz).location = .ok (s • mx + t • my) ∧
        ((Obj.new C p).run cz).covariance = .ok (s ^ 2 • Cx + (s * t) • B + t ^ 2 • Cy)

/-- The standard deviation reported for the portfolio `w`. -/
noncomputable def risk {ι : Type} [Fintype ι] (c : Matrix ι ι ℝ) (w : ι → ℝ) : ℝ := Real.sqrt (quad c w)

/-- Reported risk is subadditive, and convex: on a blend of two histories with weights `s, t` every portfolio has at most `|s|` times its risk on the first plus `|t|`
times its risk on the second. -/
def Diversifies {ι : Type} [Fintype ι] [DecidableEq ι] (C : Cls ι ℝ) (p : C.Param) : Prop :=
  ∀ (cx cy cz : List (Call ι ℝ)) (s t : ℝ), (used (C.diff p) cx).length = (used (C.diff p) cy).length → used (C.diff p) cx ≠ [] →
    used (C.diff p) cz = blend s t (used (C.diff p) cx) (used (C.diff p) cy) →
    ∃ Cx Cy Cz : Matrix ι ι ℝ, ((Obj.new C p).run cx).covariance = .ok Cx ∧ ((Obj.new C p).run cy).covariance = .ok Cy ∧
      ((Obj.new C p).run cz).covariance = .ok Cz ∧ ∀ w, risk Cz w ≤ |s| * risk Cx w + |t| * risk Cy w

end Precise.Spec
