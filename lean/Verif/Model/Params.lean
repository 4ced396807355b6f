import Verif.Model.Registry

/-!
# Constructor arguments and `get_params` / `set_params` (`base.py:124-137`, the `__init__` of each class)

An instance is its class name and the attributes of its `__dict__` that hold parameters (or names the user made up).
The attributes of the fit (`_state`, `n_features_in_`, `_prev_x`, ...) are in `Model/Base`; `set_params` with one of
those names is not modelled.
-/

namespace Precise

/-- A parameter value (the arguments of the `__init__` methods listed in `signatures`, e.g. `shrunk.py:28-34`). -/
inductive PArg
  | float (x : ℝ)
  | int (n : ℤ)
  | bool (b : Bool)
  | str (s : String)
  | none

/-- The parameters of each registered class's `__init__` with their defaults, in order (without `self`):
what `inspect.signature(cls.__init__).parameters` lists (`base.py:126-129`). -/
noncomputable def signatures : List (String × List (String × PArg)) :=
  [("EmpiricalCovariance", [("diff", .bool false)]),                                                  -- empirical.py:23
   ("DiagonalCovariance", [("r", .float (1 / 20)), ("diff", .bool false)]),                           -- diagonal.py:23
   ("BlockCovariance", [("r", .float (1 / 20)), ("n_blocks", .int 4), ("diff", .bool false)]),        -- block_covariance.py:34
   ("EwaCovariance", [("r", .float (1 / 20)), ("diff", .bool false)]),                                -- ewa.py:23
   ("AdaptiveEwaCovariance", [("r", .float (1 / 20)), ("max_r", .float (1 / 2)), ("diff", .bool false)]), -- adaptive.py:26
   ("LedoitWolfCovariance", [("r", .float (1 / 20)), ("diff", .bool false)]),                         -- ledoitwolf.py:24
   ("OASCovariance", [("r", .float (1 / 20)), ("diff", .bool false)]),                                -- oas.py:25
   ("ShrunkCovariance", [("r", .float (1 / 20)), ("delta", .float (1 / 10)), ("target", .str "constant_correlation"),
      ("diff", .bool false)]),                                                                        -- shrunk.py:28-34
   ("SchurCovariance", [("r", .float (1 / 20)), ("n_blocks", .int 4), ("gamma", .float (1 / 2)),
      ("interpolation", .str "linear"), ("diff", .bool false)]),                                      -- schurcov.py:32-33
   ("SchurConditionalCovariance", [("r", .float (1 / 20)), ("n_blocks", .int 4), ("diff", .bool false)]), -- schur_conditional.py:39
   ("SchurLedoitWolfCovariance", [("r", .float (1 / 20)), ("n_blocks", .int 4), ("diff", .bool false)]),  -- schur_ledoit_wolf.py:38
   ("PartialMomentsCovariance", [("r", .float (1 / 20)), ("diff", .bool false)]),                     -- partialmoments.py:28
   ("HuberCovariance", [("r", .float (1 / 20)), ("c", .float (5 / 2)), ("diff", .bool false)]),       -- huber.py:27
   ("TylerCovariance", [("r", .float (1 / 20)), ("diff", .bool false)]),                              -- tyler.py:28
   ("GeodesicEwaCovariance", [("r", .float (1 / 20)), ("diff", .bool false)]),                        -- geodesic.py:31
   ("DCCCovariance", [("r", .float (1 / 20)), ("vol_r", .none), ("diff", .bool false)]),              -- dcc.py:26
   ("FactorCovariance", [("k", .int 2), ("r", .float (1 / 20)), ("diff", .bool false)])]              -- factor.py:25

/-- `_param_names()` with the defaults, for one class (`base.py:126-129`). -/
noncomputable def signature (cls : String) : List (String × PArg) := (signatures.lookup cls).getD []

/-- An instance as far as its parameters go (`base.py:126-137`). -/
structure Inst where
  cls : String
  dict : List (String × PArg)

/-- `setattr` on the instance `__dict__`: overwrite, or append (`base.py:136`). -/
def setAttr : List (String × PArg) → String → PArg → List (String × PArg)
  | [], k, v => [(k, v)]
  | (k', v') :: d, k, v => if k' = k then (k, v) :: d else (k', v') :: setAttr d k v

/-- Python's binding of positional and keyword arguments to the parameters of a function, with defaults: too many
positional arguments, an unknown keyword or a parameter given twice is a TypeError. The keywords are distinct (a dict,
or a call the parser accepted) (the calls `keyed.py:31,37`, `base.py:172`). -/
def bindArgs (sig : List (String × PArg)) (args : List PArg) (kwargs : List (String × PArg)) :
    Except PyErr (List (String × PArg)) :=
  if sig.length < args.length then .error .typeError
  else if kwargs.any (fun kv => !((sig.map Prod.fst).contains kv.1)) then .error .typeError
  else
    let pos := (sig.map Prod.fst).zip args
    if kwargs.any (fun kv => (pos.map Prod.fst).contains kv.1) then .error .typeError
    else .ok (sig.map fun nd => (nd.1, ((pos ++ kwargs).lookup nd.1).getD nd.2))

/-- `Cls(*args, **kwargs)`: bind, then `self.x = x` for every parameter (the `__init__` of each class). No value is
checked there (`keyed.py:31`, `base.py:172`; the `__init__` bodies, e.g. `empirical.py:23-25`). -/
noncomputable def construct (cls : String) (args : List PArg) (kwargs : List (String × PArg)) : Except PyErr Inst :=
  (bindArgs (signature cls) args kwargs).map fun bound =>
    { cls := cls, dict := bound.foldl (fun d kv => setAttr d kv.1 kv.2) [] }

/-- `get_params()` (`base.py:131-132`): `getattr` of every parameter name. -/
noncomputable def Inst.getParams (o : Inst) : Except PyErr (List (String × PArg)) :=
  ((signature o.cls).map Prod.fst).mapM fun k =>
    match o.dict.lookup k with
    | some v => .ok (k, v)
    | none => .error .attributeError

/-- The read-only properties of `BaseOnlineCovariance` (`base.py:84-102`): assigning to one raises AttributeError. -/
def readOnly : List String := ["n_samples_", "location_", "covariance_", "correlation_", "precision_"]

/-- `set_params(**params)` (`base.py:134-137`): assignments in order; the object as it is left, and whether it raised. -/
def Inst.setParams (o : Inst) : List (String × PArg) → Inst × Except PyErr Unit
  | [] => (o, .ok ())
  | (k, v) :: rest =>
    if readOnly.contains k then (o, .error .attributeError)
    else Inst.setParams { o with dict := setAttr o.dict k v } rest

/-- `_clone` (`keyed.py:29-31`, `conditional.py:31-32`): `type(est)(**est.get_params())`. -/
noncomputable def Inst.clone (o : Inst) : Except PyErr Inst :=
  match o.getParams with
  | .error e => .error e
  | .ok ps => construct o.cls [] ps

/-- What `__getstate__` / `__setstate__` do to the parameters (`base.py:165,171`): `__init__(**get_params())` on an empty
instance. -/
noncomputable def Inst.unpickled (o : Inst) : Except PyErr Inst :=
  match o.getParams with
  | .error e => .error e
  | .ok ps => construct o.cls [] ps

/-- `_factory(estimator, kwargs)` called (`keyed.py:34-40`) for a class. -/
noncomputable def factoryOfClass (cls : String) (kwargs : List (String × PArg)) : Except PyErr Inst := construct cls [] kwargs

/-- `_factory(estimator, kwargs)` for an instance: ValueError if there are keyword arguments, otherwise a factory that
clones it (`keyed.py:38-40`). -/
noncomputable def factoryOfInstance (o : Inst) (kwargs : List (String × PArg)) : Except PyErr (Unit → Except PyErr Inst) :=
  if kwargs ≠ [] then .error .valueError else .ok fun _ => o.clone

end Precise
