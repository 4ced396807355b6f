import Verif.Model.Repr

/-!
# Evaluating a line of Python

The part of Python's expression grammar that matters for `eval(repr(x))`: numbers, strings, `True`, `False`, `None`, lists of strings, and
calls of the public classes with keyword arguments. Everything else (in particular a name that is not a public class, or text such as
`<... object at 0x7f>`) is an error, `none`. Written from the Python reference, not from the code that prints.
-/

namespace Precise.Spec

/-- A character of an identifier. -/
def identChar (c : Char) : Bool := c.isAlphanum || c == '_'

/-- A character an identifier can start with. -/
def identStart (c : Char) : Bool := c.isAlpha || c == '_'

/-- The value of a decimal digit string. -/
def natVal (t : List Char) : ℕ := t.foldl (fun a c => 10 * a + (c.toNat - 48)) 0

def isDigits (t : List Char) : Bool := !t.isEmpty && t.all Char.isDigit

/-- A number: an optional minus and digits is an int, anything else a float. -/
noncomputable def readNum (F : FloatText) (t : List Char) : Option PArg :=
  match t with
  | '-' :: d => if isDigits d then some (.int (-(natVal d : ℤ))) else (F.value t).map .float
  | d => if isDigits d then some (.int (natVal d)) else (F.value t).map .float

/-- The value of a lower-case hexadecimal digit. -/
def hexDigit (c : Char) : Option ℕ :=
  if c.isDigit then some (c.toNat - 48) else if 97 ≤ c.toNat ∧ c.toNat ≤ 102 then some (c.toNat - 87) else none

/-- The value of a hexadecimal digit string. -/
def hexVal (t : List Char) : Option ℕ := t.foldl (fun a c => a.bind fun v => (hexDigit c).map fun d => 16 * v + d) (some 0)

/-- The rest of a string literal after its opening quote `q`: its characters and what follows. -/
def readStr (q : Char) (n : ℕ) (t : List Char) : Option (List Char × List Char) :=
  match n with
  | 0 => none
  | n + 1 =>
    match t with
    | [] => none
    | c :: r =>
      if c = q then some ([], r)
      else if c = '\\' then
        match r with
        | [] => none
        | e :: r =>
          if e = '\\' ∨ e = '\'' ∨ e = '"' then (readStr q n r).map fun p => (e :: p.1, p.2)
          else if e = 't' then (readStr q n r).map fun p => ('\t' :: p.1, p.2)
          else if e = 'n' then (readStr q n r).map fun p => ('\n' :: p.1, p.2)
          else if e = 'r' then (readStr q n r).map fun p => ('\r' :: p.1, p.2)
          else
            let w := if e = 'x' then 2 else if e = 'u' then 4 else if e = 'U' then 8 else 0
            if w = 0 then none
            else (hexVal (r.take w)).bind fun v => (readStr q n (r.drop w)).map fun p => (Char.ofNat v :: p.1, p.2)
      else (readStr q n r).map fun p => (c :: p.1, p.2)

/-- Leading spaces are skipped. -/
def skip (t : List Char) : List Char := t.dropWhile (· == ' ')

/-- The rest of a list of string literals after its opening bracket. -/
def readStrs : ℕ → List Char → Option (List String × List Char)
  | 0, _ => none
  | n + 1, t =>
    match skip t with
    | ']' :: r => some ([], r)
    | c :: r =>
      if c = '\'' ∨ c = '"' then
        (readStr c (r.length + 1) r).bind fun p =>
          match p.2 with
          | ',' :: r' => (readStrs n r').map fun l => (String.ofList p.1 :: l.1, l.2)
          | ']' :: r' => some ([String.ofList p.1], r')
          | _ => none
      else none
    | [] => none

/-- What an expression can evaluate to. -/
inductive PyV
  | arg (v : PArg)
  | keys (ks : List String)
  | obj (o : PObj)
  | judge (a : Judge)
  /-- `FixedUniverse(keys=keys, impute=impute)`, wrapping the default `EwaCovariance()` -/
  | fixed (keys : Option (List String)) (impute : String)

/-- Plain keyword arguments. -/
def plain (kv : List (String × PyV)) : Option (List (String × PArg)) :=
  kv.mapM fun p => match p.2 with
    | .arg v => some (p.1, v)
    | _ => none

/-- An argument `vol` or `corr`: an estimator, or None (also when it is left out) for `EwaCovariance()`. -/
noncomputable def subModel (kv : List (String × PyV)) (k : String) : Option PObj :=
  match kv.lookup k with
  | some (.obj o) => some o
  | some (.arg .none) | none => (construct "EwaCovariance" [] []).toOption.map .est
  | _ => none

/-- An argument `keys` of `FixedUniverse`: a list of names, or None (also when it is left out). -/
def keysArg (kv : List (String × PyV)) : Option (Option (List String)) :=
  match kv.lookup "keys" with
  | some (.keys ks) => some (some ks)
  | some (.arg .none) | none => some none
  | _ => none

/-- An argument `impute` of `FixedUniverse`. -/
def imputeArg (kv : List (String × PyV)) : Option String :=
  match kv.lookup "impute" with
  | some (.arg (.str s)) => some s
  | none => some "ffill"
  | _ => none

/-- `name(**kv)` with `from precise import *` and `from precise.assessment import *`. -/
noncomputable def applyName (name : String) (kv : List (String × PyV)) : Option PyV :=
  if name ∈ estimatorNames then
    (plain kv).bind fun ps => (construct name [] ps).toOption.map fun o => .obj (.est o)
  else if name = "ConditionalCovariance" then
    if kv.all fun p => p.1 == "vol" || p.1 == "corr" then
      (subModel kv "vol").bind fun v => (subModel kv "corr").map fun c => .obj (.cond v c)
    else none
  else if name ∈ allAssessors.map Prod.fst then
    (plain kv).bind fun ps => (Judge.construct name ps).toOption.map .judge
  else if name = "FixedUniverse" then
    if kv.all fun p => p.1 == "keys" || p.1 == "impute" then
      (keysArg kv).bind fun ks => (imputeArg kv).map fun i => .fixed ks i
    else none                                     -- other keywords go to the estimator, which is an instance: ValueError
  else none

mutual

/-- One expression at the start of the text: its value and the rest. -/
noncomputable def parseVal (F : FloatText) (n : ℕ) (t : List Char) : Option (PyV × List Char) :=
  match n with
  | 0 => none
  | n + 1 =>
    match t with
    | [] => none
    | c :: r =>
      if c = '\'' ∨ c = '"' then (readStr c (r.length + 1) r).map fun p => (.arg (.str (String.ofList p.1)), p.2)
      else if c.isDigit || c == '-' then
        (readNum F ((c :: r).takeWhile numChar)).map fun v => (.arg v, (c :: r).dropWhile numChar)
      else if c = '[' then (readStrs (r.length + 1) r).map fun p => (.keys p.1, p.2)
      else if identStart c then
        let name := (c :: r).takeWhile identChar
        let rest := (c :: r).dropWhile identChar
        if name = "True".toList then some (.arg (.bool true), rest)
        else if name = "False".toList then some (.arg (.bool false), rest)
        else if name = "None".toList then some (.arg .none, rest)
        else match rest with
          | '(' :: r' => (parseArgs F n r').bind fun kr => (applyName (String.ofList name) kr.1).map fun v => (v, kr.2)
          | _ => none
      else none

/-- The keyword arguments of a call after its opening parenthesis. -/
noncomputable def parseArgs (F : FloatText) (n : ℕ) (t : List Char) : Option (List (String × PyV) × List Char) :=
  match n with
  | 0 => none
  | n + 1 =>
    match skip t with
    | [] => none
    | c :: r =>
      if c = ')' then some ([], r)
      else
        match (c :: r).dropWhile identChar with
        | '=' :: r' =>
          (parseVal F n r').bind fun vr =>
            let kv := (String.ofList ((c :: r).takeWhile identChar), vr.1)
            match vr.2 with
            | ',' :: r'' => (parseArgs F n r'').map fun l => (kv :: l.1, l.2)
            | ')' :: r'' => some ([kv], r'')
            | _ => none
        | _ => none

end

/-- `eval(text)`; `none` if it raises (or is not in the grammar above). -/
noncomputable def pyEval (F : FloatText) (t : List Char) : Option PyV :=
  match parseVal F (t.length + 1) t with
  | some (v, []) => some v
  | _ => none

/-- The same class and the same parameters, through sub-models. -/
def Same : PObj → PObj → Prop
  | .est a, .est b => a.cls = b.cls ∧ a.getParams = b.getParams
  | .cond v c, .cond v' c' => Same v v' ∧ Same c c'
  | _, _ => False

end Precise.Spec
