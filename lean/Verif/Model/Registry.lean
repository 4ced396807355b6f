import Verif.Model.Blocks

/-!
# Model of `precise/registry.py` and `precise/assessment/registry.py`
-/

namespace Precise

/-- The `for` loop of `estimator_from_name` (`registry.py:60-65`) and `assessor_from_name`
(`assessment/registry.py:30-34`) over a list of named things. -/
def fromName {α : Type*} : List (String × α) → String → Except PyErr α
  | [], _ => .error .keyError
  | (n, a) :: rest, name => if n = name then .ok a else fromName rest name

/-- `_REGISTRY` (`registry.py:30-48`) with the class names, for `p` variables. -/
noncomputable def registry (L : Lapack) (p : ℕ) : List (String × Cls (Fin p) ℝ) :=
  [("EmpiricalCovariance", empiricalCls (Fin p) ℝ),
   ("DiagonalCovariance", diagonalCls (Fin p) ℝ),
   ("BlockCovariance", blockCls L p),
   ("EwaCovariance", ewaCls (Fin p) ℝ),
   ("AdaptiveEwaCovariance", adaptiveCls L (Fin p)),
   ("LedoitWolfCovariance", ledoitWolfCls (Fin p) ℝ),
   ("OASCovariance", oasCls (Fin p) ℝ),
   ("ShrunkCovariance", shrunkCls (Fin p)),
   ("SchurCovariance", schurCls L p),
   ("SchurConditionalCovariance", schurCondCls L p),
   ("SchurLedoitWolfCovariance", schurLWCls L p),
   ("PartialMomentsCovariance", partialMomentsCls L (Fin p)),
   ("HuberCovariance", huberCls L (Fin p)),
   ("TylerCovariance", tylerCls L (Fin p)),
   ("GeodesicEwaCovariance", geodesicCls L (Fin p)),
   ("DCCCovariance", dccCls (Fin p)),
   ("FactorCovariance", factorCls (Fin p))]

/-- `estimator_names()` (`registry.py:56-57`). -/
def estimatorNames : List String :=
  ["EmpiricalCovariance", "DiagonalCovariance", "BlockCovariance", "EwaCovariance", "AdaptiveEwaCovariance",
   "LedoitWolfCovariance", "OASCovariance", "ShrunkCovariance", "SchurCovariance", "SchurConditionalCovariance",
   "SchurLedoitWolfCovariance", "PartialMomentsCovariance", "HuberCovariance", "TylerCovariance",
   "GeodesicEwaCovariance", "DCCCovariance", "FactorCovariance"]

/-- `estimator_from_name(name)` (`registry.py:60-65`). -/
noncomputable def estimatorFromName (L : Lapack) (p : ℕ) (name : String) : Except PyErr (Cls (Fin p) ℝ) :=
  fromName (registry L p) name

/-- The assessors of `all_assessors()` (`assessment/registry.py:17-27`), with default parameters. -/
inductive AssessorKind
  | logLikelihood | blockPseudoLikelihood | schurLikelihood | steinLoss | frobeniusToTruth | gmvVariance | variogramScore
  deriving DecidableEq

/-- `[(a.name, a) for a in all_assessors()]` (`assessment/registry.py:17-27`, `assessment/base.py:41-43`). -/
def allAssessors : List (String × AssessorKind) :=
  [("LogLikelihood", .logLikelihood), ("BlockPseudoLikelihood", .blockPseudoLikelihood), ("SchurLikelihood", .schurLikelihood),
   ("SteinLoss", .steinLoss), ("FrobeniusToTruth", .frobeniusToTruth), ("GMVVariance", .gmvVariance),
   ("VariogramScore", .variogramScore)]

/-- `assessor_from_name(name)` (`assessment/registry.py:30-34`). -/
def assessorFromName (name : String) : Except PyErr AssessorKind := fromName allAssessors name

/-- `needs_data` (`assessment/base.py:25`, overridden at `assessment/assessors.py:131`). -/
def AssessorKind.needsData : AssessorKind → Bool
  | .frobeniusToTruth => false
  | _ => true

/-- `needs_truth` (`assessment/base.py:26`, overridden at `assessment/assessors.py:132`). -/
def AssessorKind.needsTruth : AssessorKind → Bool
  | .frobeniusToTruth => true
  | _ => false

/-- `usable(have_data, have_truth)` (`assessment/base.py:37-39`). -/
def AssessorKind.usable (a : AssessorKind) (haveData haveTruth : Bool) : Bool :=
  (haveData || !a.needsData) && (haveTruth || !a.needsTruth)

end Precise
