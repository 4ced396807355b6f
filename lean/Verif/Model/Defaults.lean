import Verif.Model.Registry
import Verif.Model.Recommend
import Verif.Model.Oos
import Verif.Model.History

/-!
# The shipped classes with default parameters, and a trial of `research/oos.py`

`cls()` for each `cls` in `all_estimators()` (`precise/registry.py:30-53`), as a function from the calls made on the new
instance to its `covariance_`.
-/

namespace Precise.Oos

open Obj

/-- `[(cls.__name__, covariance_ of cls() after the calls) for cls in all_estimators()]`, in the order of `_REGISTRY`
(`registry.py:30-53`), with the defaults of the constructors. Contract for TylerCovariance: the first observation used is
not the zero vector (otherwise its `covariance_` is NaN, C36). -/
noncomputable def outOfBox (L : Lapack) (p : ℕ) : List (String × (List (Call (Fin p) ℝ) → Except PyErr (Matrix (Fin p) (Fin p) ℝ))) :=
  [("EmpiricalCovariance", fun c => ((new (empiricalCls (Fin p) ℝ) (false : Bool)).run c).covariance),                           -- empirical.py:23
   ("DiagonalCovariance", fun c => ((new (diagonalCls (Fin p) ℝ) (⟨1 / 20, false⟩ : RParam ℝ)).run c).covariance),               -- diagonal.py:23
   ("BlockCovariance", fun c => ((new (blockCls L p) (⟨1 / 20, 4, false⟩ : BlockParam)).run c).covariance),                      -- block_covariance.py:34
   ("EwaCovariance", fun c => ((new (ewaCls (Fin p) ℝ) (⟨1 / 20, false⟩ : RParam ℝ)).run c).covariance),                         -- ewa.py:23
   ("AdaptiveEwaCovariance", fun c => ((new (adaptiveCls L (Fin p)) (⟨1 / 20, 1 / 2, false⟩ : AdaParam)).run c).covariance),     -- adaptive.py:26
   ("LedoitWolfCovariance", fun c => ((new (ledoitWolfCls (Fin p) ℝ) (⟨1 / 20, false⟩ : RParam ℝ)).run c).covariance),           -- ledoitwolf.py:24
   ("OASCovariance", fun c => ((new (oasCls (Fin p) ℝ) (⟨1 / 20, false⟩ : RParam ℝ)).run c).covariance),                         -- oas.py:25
   ("ShrunkCovariance", fun c =>
      ((new (shrunkCls (Fin p)) (⟨1 / 20, 1 / 10, "constant_correlation", false⟩ : ShrunkParam)).run c).covariance),             -- shrunk.py:28-34
   ("SchurCovariance", fun c => ((new (schurCls L p) (⟨1 / 20, 4, 1 / 2, "linear", false⟩ : SchurParam)).run c).covariance),     -- schurcov.py:32-33
   ("SchurConditionalCovariance", fun c => scCovariance? L ((new (schurCondCls L p) (⟨1 / 20, 4, false⟩ : BlockParam)).run c)),  -- schur_conditional.py:39
   ("SchurLedoitWolfCovariance", fun c => ((new (schurLWCls L p) (⟨1 / 20, 4, false⟩ : BlockParam)).run c).covariance),          -- schur_ledoit_wolf.py:38
   ("PartialMomentsCovariance", fun c => ((new (partialMomentsCls L (Fin p)) (⟨1 / 20, false⟩ : RParam ℝ)).run c).covariance),   -- partialmoments.py:28
   ("HuberCovariance", fun c => ((new (huberCls L (Fin p)) (⟨1 / 20, 5 / 2, false⟩ : HuberParam)).run c).covariance),            -- huber.py:27
   ("TylerCovariance", fun c => ((new (tylerCls L (Fin p)) (⟨1 / 20, false⟩ : RParam ℝ)).run c).covariance),                     -- tyler.py:28
   ("GeodesicEwaCovariance", fun c => ((new (geodesicCls L (Fin p)) (⟨1 / 20, false⟩ : RParam ℝ)).run c).covariance),            -- geodesic.py:31
   ("DCCCovariance", fun c => ((new (dccCls (Fin p)) (⟨1 / 20, none, false⟩ : DCCParam)).run c).covariance),                     -- dcc.py:26
   ("FactorCovariance", fun c => ((new (factorCls (Fin p)) (⟨2, 1 / 20, false⟩ : FactorParam)).run c).covariance)]               -- factor.py:25

variable {G : Type} {p : ℕ}

/-- `suggest(train, top=1)[0].__name__` (`oos.py:124`, `oos_equity.py:61`). By C53 the list is never missing or empty. -/
noncomputable def topPick (L : Lapack) (train : List (Fin p → ℝ)) : String := ((suggest L train 1).getD []).headD ""

/-- The scores of `_trial` (`oos.py:115-120`): `cls().fit(train).covariance_` judged on the test rows; `-inf` if fitting or
judging raises. `assess` is `assessor.score(cov, X_test=test)`; a NaN score is not modelled. -/
noncomputable def trialScores (L : Lapack) (assess : Matrix (Fin p) (Fin p) ℝ → List (Fin p → ℝ) → Except PyErr (WithBot ℝ))
    (train test : List (Fin p → ℝ)) : Scores :=
  (outOfBox L p).map fun e =>
    (e.1, match e.2 [.fit (.batch train)] with
      | .error _ => ⊥
      | .ok cov => match assess cov test with
        | .error _ => ⊥
        | .ok s => s)

/-- `_trial(*ENSEMBLES[e], ...)` (`oos.py:105-125`). `draw e` makes the training and test rows of ensemble `e` (`gen` and two
calls of `_sample`); `recommender` is the optional argument (`none`: the shipped `suggest`). -/
noncomputable def trialOf (L : Lapack) (draw : String → G → (List (Fin p → ℝ) × List (Fin p → ℝ)) × G)
    (assess : Matrix (Fin p) (Fin p) ℝ → List (Fin p → ℝ) → Except PyErr (WithBot ℝ))
    (recommender : Option (List (Fin p → ℝ) → String)) (e : String) (g : G) : (Scores × String) × G :=
  let ((train, test), g') := draw e g
  ((trialScores L assess train test, match recommender with | some f => f train | none => topPick L train), g')

end Precise.Oos
