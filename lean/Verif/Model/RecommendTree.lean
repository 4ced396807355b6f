import Mathlib.Data.Rat.Defs

/-!
# The frozen decision tree (`precise/_recommender_model.py`), transcribed by a script

Decimal literals are exact rationals.
-/

namespace Precise.RecTree

/-- `MEAN` (`_recommender_model.py:7`). -/
def meanT : List ℚ :=
  [4171/4000, 6547773/1000000, 3004/15625, 3167623491491733/250, 191357/500000, 90363/500000, 1135/32]

/-- `STD` (`_recommender_model.py:8`). -/
def stdT : List ℚ :=
  [120277/200000, 3358803/500000, 35269/250000, 5161595495578041/250, 184443/1000000, 1276679/1000000,
   8498147/500000]

/-- `CLASSES` (`_recommender_model.py:9`). -/
def classesT : List String :=
  ["DiagonalCovariance", "EmpiricalCovariance", "FactorCovariance", "GeodesicEwaCovariance",
   "LedoitWolfCovariance", "OASCovariance", "PartialMomentsCovariance", "SchurCovariance", "ShrunkCovariance"]

/-- `FEATURE` (`_recommender_model.py:10`). -/
def featureT : List ℤ :=
  [2, 4, 0, 1, -2, 5, -2, -2, 5, 5, -2, -2, -2, 5, 1, 2, -2, -2, 4, -2, -2, 3, 5, -2, -2, -2, 5, 1, 3, 2, -2, -2,
   3, -2, -2, 2, 0, -2, -2, 4, -2, -2, 2, 4, -2, -2, -2]

/-- `THRESHOLD` (`_recommender_model.py:11`). -/
def thresholdT : List ℚ :=
  [-62497/250000, 77657/125000, -24211/40000, -60313/125000, -2, -163481/1000000, -2, -2, 181827/1000000,
   -170073/500000, -2, -2, -2, 225237/500000, -636807/1000000, -109967/125000, -2, -2, 294049/250000, -2, -2,
   7481/250000, 156507/125000, -2, -2, -2, 401851/500000, -302127/1000000, -224741/500000, 181231/500000, -2, -2,
   -4469/500000, -2, -2, 1244011/1000000, -38617/62500, -2, -2, -302191/250000, -2, -2, 312959/500000,
   -261223/250000, -2, -2, -2]

/-- `LEFT` (`_recommender_model.py:12`). -/
def leftT : List ℤ :=
  [1, 2, 3, 4, -1, 6, -1, -1, 9, 10, -1, -1, -1, 14, 15, 16, -1, -1, 19, -1, -1, 22, 23, -1, -1, -1, 27, 28, 29,
   30, -1, -1, 33, -1, -1, 36, 37, -1, -1, 40, -1, -1, 43, 44, -1, -1, -1]

/-- `RIGHT` (`_recommender_model.py:13`). -/
def rightT : List ℤ :=
  [26, 13, 8, 5, -1, 7, -1, -1, 12, 11, -1, -1, -1, 21, 18, 17, -1, -1, 20, -1, -1, 25, 24, -1, -1, -1, 42, 35,
   32, 31, -1, -1, 34, -1, -1, 39, 38, -1, -1, 41, -1, -1, 46, 45, -1, -1, -1]

/-- `VALUE` (`_recommender_model.py:14`). -/
def valueT : List (List ℤ) :=
  [[0, 0, 0, 0, 0, 0, 0, 0, 0], [0, 0, 0, 0, 0, 0, 0, 0, 0], [0, 0, 0, 0, 0, 0, 0, 0, 0],
   [0, 0, 0, 0, 0, 0, 0, 0, 0], [0, 0, 0, 0, 0, 0, 0, 0, 0], [0, 0, 0, 0, 0, 0, 0, 0, 0],
   [0, 0, 0, 0, 0, 0, 0, 0, 0], [0, 0, 0, 0, 0, 0, 0, 0, 0], [0, 0, 0, 0, 0, 0, 0, 0, 0],
   [0, 0, 0, 0, 0, 0, 0, 0, 0], [0, 0, 0, 0, 0, 0, 0, 0, 0], [0, 0, 0, 0, 0, 0, 0, 0, 0],
   [0, 0, 0, 0, 0, 0, 0, 0, 0], [0, 0, 0, 0, 0, 0, 0, 0, 0], [0, 0, 0, 0, 0, 0, 0, 0, 0],
   [0, 0, 0, 0, 0, 0, 0, 0, 0], [0, 0, 0, 0, 0, 0, 0, 0, 0], [0, 0, 0, 0, 0, 0, 0, 0, 0],
   [0, 0, 0, 0, 0, 0, 0, 0, 0], [0, 0, 0, 0, 0, 0, 0, 0, 0], [0, 0, 0, 0, 0, 0, 0, 0, 0],
   [0, 0, 0, 0, 0, 0, 0, 0, 0], [0, 0, 0, 0, 0, 0, 0, 0, 0], [0, 0, 0, 0, 0, 0, 0, 0, 0],
   [0, 0, 0, 0, 0, 0, 0, 0, 0], [0, 0, 0, 0, 0, 0, 0, 0, 0], [0, 0, 0, 0, 0, 0, 0, 0, 0],
   [0, 0, 0, 0, 0, 0, 0, 0, 0], [0, 0, 0, 0, 0, 0, 0, 0, 0], [0, 0, 0, 0, 0, 0, 0, 0, 0],
   [0, 0, 0, 0, 0, 0, 0, 0, 0], [0, 0, 0, 0, 0, 0, 0, 0, 0], [0, 0, 0, 0, 0, 0, 0, 0, 0],
   [0, 0, 0, 0, 0, 0, 0, 0, 0], [0, 0, 0, 0, 0, 0, 0, 0, 0], [0, 0, 0, 0, 0, 0, 0, 0, 0],
   [0, 0, 0, 0, 0, 0, 0, 0, 0], [0, 0, 0, 0, 0, 0, 0, 0, 0], [0, 0, 0, 0, 0, 0, 0, 0, 0],
   [0, 0, 0, 0, 0, 0, 0, 0, 0], [0, 0, 0, 0, 0, 0, 0, 0, 0], [0, 0, 0, 0, 0, 0, 0, 0, 0],
   [0, 0, 0, 0, 0, 0, 0, 0, 0], [0, 0, 0, 0, 0, 0, 0, 0, 0], [0, 0, 0, 0, 0, 0, 0, 0, 0],
   [0, 0, 0, 0, 0, 0, 0, 0, 0], [0, 0, 0, 0, 1, 0, 0, 0, 0]]

end Precise.RecTree
