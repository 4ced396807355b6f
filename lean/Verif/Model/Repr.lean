import Verif.Model.Params
import Verif.Model.Keyed

/-!
# `repr(...)` of estimators, judges and keyed adapters

`base.py:178-180`, `conditional.py:179-181`, `assessment/base.py:45-46`, `assessment/assessors.py:56-57,102-106`, `keyed.py:164-165,282-283`.

Text is a list of characters. What Python's `repr` does to a number or a string is written out below, except for the digits of a float
(contract `FloatText`: Python guarantees `float(repr(x)) == x`) and for which characters beyond ASCII count as printable (a parameter).
Infinities and NaN have no place in `PArg`; numpy scalars passed as parameters are not modelled.
-/

namespace Precise

/-- The characters of the text of a float (used for `base.py:179`: `!r` of a float). -/
def numChar (c : Char) : Bool := c.isDigit || c == '.' || c == 'e' || c == '+' || c == '-'

/-- The text of floats: `text` is `repr`, `value` is `float(...)` (`base.py:179`: `!r` of a float). -/
structure FloatText where
  floats : Set ℝ
  text : ℝ → List Char
  value : List Char → Option ℝ
  numeric : ∀ x ∈ floats, ∀ c ∈ text x, numChar c = true
  starts : ∀ x ∈ floats, ∃ c r, text x = c :: r ∧ (c.isDigit || c == '-') = true
  notInt : ∀ x ∈ floats, ∃ c ∈ text x, c = '.' ∨ c = 'e'
  roundtrip : ∀ x ∈ floats, value (text x) = some x

/-- One decimal or hexadecimal digit (used for `base.py:179`). -/
def digitChar (d : ℕ) : Char := if d < 10 then Char.ofNat (48 + d) else Char.ofNat (87 + d)

/-- `repr(n)` of a non-negative int (`base.py:179`: `!r` of an int). -/
def showNat (n : ℕ) : List Char := if n < 10 then [digitChar n] else showNat (n / 10) ++ [digitChar (n % 10)]
decreasing_by omega

/-- `repr(n)` of an int (`base.py:179`: `!r` of an int). -/
def showInt (n : ℤ) : List Char := if n < 0 then '-' :: showNat n.natAbs else showNat n.natAbs

/-- The last `w` hexadecimal digits of `n` (used for `base.py:179`: escapes in the `!r` of a str). -/
def showHex : (w n : ℕ) → List Char
  | 0, _ => []
  | w + 1, n => showHex w (n / 16) ++ [digitChar (n % 16)]

/-- One character inside the `repr` of a str with quote `q` (CPython `unicode_repr`) (`base.py:179`: `!r` of a str). -/
def showChar (printable : Char → Bool) (q c : Char) : List Char :=
  if c = q ∨ c = '\\' then ['\\', c]
  else if c = '\t' then ['\\', 't']
  else if c = '\n' then ['\\', 'n']
  else if c = '\r' then ['\\', 'r']
  else if 32 ≤ c.toNat ∧ c.toNat < 127 then [c]
  else if 127 < c.toNat ∧ printable c = true then [c]
  else if c.toNat < 256 then '\\' :: 'x' :: showHex 2 c.toNat
  else if c.toNat < 65536 then '\\' :: 'u' :: showHex 4 c.toNat
  else '\\' :: 'U' :: showHex 8 c.toNat

/-- The quote `repr` chooses for a str (`base.py:179`: `!r` of a str). -/
def quoteOf (s : List Char) : Char := if '\'' ∈ s ∧ '"' ∉ s then '"' else '\''

/-- `repr(s)` of a str (CPython `unicode_repr`) (`base.py:179`: `!r` of a str). -/
def showStr (printable : Char → Bool) (s : List Char) : List Char :=
  quoteOf s :: (s.flatMap (showChar printable (quoteOf s)) ++ [quoteOf s])

variable (F : FloatText) (printable : Char → Bool)

/-- `repr(v)` of a parameter value (`base.py:179`). -/
def PArg.repr : PArg → List Char
  | .float x => F.text x
  | .int n => showInt n
  | .bool true => "True".toList
  | .bool false => "False".toList
  | .str s => showStr printable s.toList
  | .none => "None".toList

/-- `str(v)`: as `repr`, but a str is itself (f-string fields without `!r`, `conditional.py:181`, `keyed.py:165,283`). -/
def PArg.str' : PArg → List Char
  | .str s => s.toList
  | v => v.repr F printable

/-- `", ".join(parts)` (`base.py:179`). -/
def joinComma : List (List Char) → List Char
  | [] => []
  | [a] => a
  | a :: b :: r => a ++ ", ".toList ++ joinComma (b :: r)

/-- `f"{k}={v!r}"` (`base.py:179`). -/
def showArg (kv : String × PArg) : List Char := kv.1.toList ++ '=' :: kv.2.repr F printable

/-- `BaseOnlineCovariance.__repr__` (`base.py:178-180`). -/
noncomputable def Inst.repr (o : Inst) : Except PyErr (List Char) :=
  o.getParams.map fun ps => o.cls.toList ++ '(' :: (joinComma (ps.map (showArg F printable)) ++ [')'])

/-- An estimator with sub-models: one of the 17 classes, a `ConditionalCovariance` of two others, or (only as `vol`) a `from_skater` factory,
whose `repr` is Python's default, with an address (`base.py:178-180`, `conditional.py:118-123,179-181`). -/
inductive PObj
  | est (o : Inst)
  | cond (vol corr : PObj)
  | factory (address : List Char)

/-- `repr` of an estimator; for `ConditionalCovariance` `conditional.py:179-181`. -/
noncomputable def PObj.repr : PObj → Except PyErr (List Char)
  | .est o => o.repr F printable
  | .cond v c => v.repr.bind fun a => c.repr.map fun b =>
      "ConditionalCovariance(vol=".toList ++ a ++ ", corr=".toList ++ b ++ [')']
  | .factory a => .ok ("<precise.conditional._SkaterVarFactory object at ".toList ++ a ++ ['>'])

/-- The constructor parameters of the judges (`assessment/assessors.py:44,80`; the others have none). -/
noncomputable def judgeSignature (name : String) : List (String × PArg) :=
  if name = "BlockPseudoLikelihood" then [("block_size", .int 10)]
  else if name = "SchurLikelihood" then [("gamma", .float (1 / 2)), ("n_blocks", .int 4), ("interpolation", .str "linear")]
  else []

/-- A judge: its class and its parameters in the order of the constructor (`assessment/assessors.py:44-45,80-83`). -/
structure Judge where
  name : String
  params : List (String × PArg)

/-- `Cls(**kwargs)` of a judge (`assessment/assessors.py:44-45,80-83`). -/
noncomputable def Judge.construct (name : String) (kwargs : List (String × PArg)) : Except PyErr Judge :=
  (bindArgs (judgeSignature name) [] kwargs).map fun ps => ⟨name, ps⟩

/-- `repr` of a judge (`assessment/base.py:45-46`, `assessment/assessors.py:56-57,102-106`): `!r` only for `interpolation`. -/
def Judge.repr (a : Judge) : List Char :=
  a.name.toList ++ '(' :: (joinComma (a.params.map fun kv =>
    if kv.1 = "interpolation" then showArg F printable kv else kv.1.toList ++ '=' :: kv.2.str' F printable) ++ [')'])

/-- `f"{keys}"` of a list of str, or `None` (`keyed.py:165`). -/
def showKeys : Option (List String) → List Char
  | none => "None".toList
  | some ks => '[' :: (joinComma (ks.map fun k => showStr printable k.toList) ++ [']'])

/-- `FixedUniverse.__repr__` (`keyed.py:164-165`). -/
def FixedU.repr {P : Proto} (U : FixedU P String) : List Char :=
  "FixedUniverse(keys=".toList ++ showKeys printable U.keys ++ ", impute=".toList ++ showStr printable U.impute.toList ++ [')']

/-- `DynamicUniverse.__repr__` (`keyed.py:282-283`). -/
def DynU.repr {P : Proto} (D : DynU P String) : List Char :=
  "DynamicUniverse(universes=".toList ++ showInt D.states.length ++ [')']

end Precise
