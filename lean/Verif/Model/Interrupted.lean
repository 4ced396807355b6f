import Verif.Model.Keyed
import Verif.Model.Conditional

/-!
# Updates that raise half-way

Model of `FixedUniverse.update`, `DynamicUniverse.update`, `learn_many` (`precise/keyed.py`) and
`ConditionalCovariance.partial_fit` (`precise/conditional.py`) when something raises in the middle: a value of the observation that
does not convert to a float (a string, a list), or a skater that raises or returns no forecast. The effects performed before the
exception stay, as in Python. The exception of a bad value is a ValueError (for some kinds of value a TypeError; one constructor here).
-/

namespace Precise

variable {Key : Type} [DecidableEq Key]

/-- A keyed observation as it arrives: `none` is a value that does not convert to a float (the argument of `update`, `keyed.py:134,226`). -/
structure RawDict (Key : Type) where
  items : List (Key × Option ℝ)
  nodup : (items.map Prod.fst).Nodup

namespace RawDict

/-- `x.keys()` (`keyed.py:136,228`). -/
def keys (x : RawDict Key) : List Key := x.items.map Prod.fst

/-- `x[k]`: absent, or present with or without a usable value (`keyed.py:144,179`). -/
def get? (x : RawDict Key) (k : Key) : Option (Option ℝ) := x.items.lookup k

/-- The items with a usable value (`keyed.py:144,179`). -/
def numbers (x : RawDict Key) : KDict Key where
  items := x.items.filterMap fun kv => kv.2.map fun v => (kv.1, v)
  nodup := by
    refine List.Nodup.sublist ?_ x.nodup
    generalize x.items = l
    induction l with
    | nil => simp
    | cons a l ih =>
      obtain ⟨k, v⟩ := a
      cases v with
      | none => simpa using ih.cons _
      | some v => simpa using ih

/-- `dict(x)` as far as it is read later: only its keys are (`keyed.py:255`). -/
def copy (x : RawDict Key) : KDict Key where
  items := x.items.map fun kv => (kv.1, kv.2.getD 0)
  nodup := by simpa [List.map_map, Function.comp_def] using x.nodup

end RawDict

/-! ## `FixedUniverse` -/

namespace FixedU

variable {P : Proto}

/-- The loop of `update` (`keyed.py:142-151`) as far as it writes `_last`: left (`false`) at the first key whose value does not
convert (line 144), with the writes of line 145 made before. -/
def scan (ks : List Key) (x : RawDict Key) : List (Fin ks.length) → (Fin ks.length → ℝ) → (Fin ks.length → ℝ) × Bool
  | [], last => (last, true)
  | i :: is, last =>
    match x.get? (ks.get i) with
    | none => scan ks x is last                                                          -- lines 146-151
    | some (some v) => scan ks x is (Function.update last i v)                           -- lines 144-145
    | some none => (last, false)                                                         -- line 144 raises

/-- `update` with the estimator in place (`keyed.py:140-153`). -/
def tryLive (impute : String) (ks : List Key) (est : Obj (P.cls ks.length)) (last : Fin ks.length → ℝ) (x : RawDict Key) :
    FixedState P Key × Except PyErr Unit :=
  match scan ks x (List.finRange ks.length) last with
  | (last', false) => (.live ks est last', .error .valueError)
  | (_, true) => (updateLive impute ks est last x.numbers, .ok ())

/-- `update(x)` (`keyed.py:134-153`). -/
def tryUpdate (U : FixedU P Key) (x : RawDict Key) : FixedU P Key × Except PyErr Unit :=
  let r := match U.state with
    | .noKeys => tryLive U.impute x.keys (P.make x.keys.length) (fun _ => 0) x           -- lines 135-139
    | .ready ks => tryLive U.impute ks (P.make ks.length) (fun _ => 0) x                 -- lines 137-139
    | .live ks est last => tryLive U.impute ks est last x
  ({ U with state := r.1 }, r.2)

/-- `learn_many(X)` (`keyed.py:56-59`): left at the first exception. -/
def tryMany (U : FixedU P Key) : List (RawDict Key) → FixedU P Key × Except PyErr Unit
  | [] => (U, .ok ())
  | x :: X =>
    match U.tryUpdate x with
    | (U', .ok ()) => tryMany U' X
    | (U', .error e) => (U', .error e)

end FixedU

/-! ## `DynamicUniverse` -/

/-- `np.array([x[k] for k in self.keys], dtype=float)` does not raise (`keyed.py:179`). -/
def Universe.readable {P : Proto} (u : Universe P Key) (x : RawDict Key) : Bool := u.keys.all fun k => match x.get? k with
  | some none => false
  | _ => true

namespace DynU

variable {P : Proto}

/-- The loop `keyed.py:230-234`: left (`false`) at the first universe whose `update` raises, with the earlier ones done. -/
def touchAll (x : RawDict Key) : List (ℕ × Universe P Key) → List (ℕ × Universe P Key) × Bool
  | [] => ([], true)
  | nu :: l =>
    if nu.2.within x.keys then
      if nu.2.readable x then
        let r := touchAll x l
        ((nu.1, nu.2.update x.numbers) :: r.1, r.2)                                      -- line 232
      else (nu :: l, false)                                                              -- line 179 raises
    else
      let r := touchAll x l
      ((nu.1, { nu.2 with staleness := nu.2.staleness + 1 }) :: r.1, r.2)                -- line 234

/-- `update(x)` (`keyed.py:226-248`). -/
def tryUpdate (D : DynU P Key) (x : RawDict Key) : DynU P Key × Except PyErr Unit :=
  let r := touchAll x D.states
  if r.2 = false then ({ D with x := some x.copy, states := r.1 }, .error .valueError)   -- lines 227-234
  else
    let s := r.1.filter fun nu => decide ((nu.2.staleness : ℤ) ≤ D.maxStaleness)         -- lines 236-237
    if s.any fun nu => nu.2.sameKeys x.keys then ({ D with x := some x.copy, states := s }, .ok ())
    else if (Universe.fresh P x.keys).readable x then
      let s' := s ++ [(D.counter, (Universe.fresh P x.keys).update x.numbers)]           -- lines 240-242
      ({ D with
        x := some x.copy
        counter := D.counter + 1
        states := if D.maxUniverses < (s'.length : ℤ) then evict s' else s' }, .ok ())   -- lines 243-247
    else ({ D with x := some x.copy, states := s }, .error .valueError)                  -- line 241 raises

/-- `learn_many(X)` (`keyed.py:56-59`): left at the first exception. -/
def tryMany (D : DynU P Key) : List (RawDict Key) → DynU P Key × Except PyErr Unit
  | [] => (D, .ok ())
  | x :: X =>
    match D.tryUpdate x with
    | (D', .ok ()) => tryMany D' X
    | (D', .error e) => (D', .error e)

end DynU

/-! ## `ConditionalCovariance` with a skater that may fail -/

/-- A skater that may raise; otherwise it returns a list of forecasts (mean, std), possibly empty, and its new state (`conditional.py:66-70`). -/
abbrev RawSkater (Sk : Type) := ℝ → Option Sk → Except PyErr (List (ℝ × ℝ) × Sk)

/-- A `_SkaterVar` (`conditional.py:53-78`). -/
structure RawVol (Sk : Type) where
  f : RawSkater Sk
  state : Option Sk
  mean : ℝ
  var : ℝ

/-- `push(y)` (`conditional.py:66-70`): `f` may raise (line 67, nothing assigned); with an empty list of forecasts the state is
already assigned when `dists[0]` raises IndexError (line 68). -/
noncomputable def RawVol.push {Sk : Type} (v : RawVol Sk) (y : ℝ) : RawVol Sk × Except PyErr Unit :=
  match v.f y v.state with
  | .error e => (v, .error e)
  | .ok ([], st) => ({ v with state := some st }, .error .indexError)
  | .ok (d :: _, st) => ({ v with state := some st, mean := d.1, var := d.2 ^ 2 }, .ok ())

/-- The fitted part of the object (`conditional.py:138-140`) for `d` series. -/
structure RawCondState (Sk : Type) {d : ℕ} (C : Cls (Fin d) ℝ) where
  vols : Fin d → RawVol Sk
  corrModel : Obj C
  nSamples : ℕ
  mean : Fin d → ℝ
  var : Fin d → ℝ

/-- A `ConditionalCovariance(from_skater(f), corr)` on `d` series (`conditional.py:118-123`). -/
structure RawCond (Sk : Type) {d : ℕ} (C : Cls (Fin d) ℝ) where
  f : RawSkater Sk
  corr : Obj C
  state : Option (RawCondState Sk C)

namespace RawCond

variable {Sk : Type} {d : ℕ} {C : Cls (Fin d) ℝ}

/-- `for i, vm in enumerate(models): vm.push(float(x[i]))` (`conditional.py:148-149`), left at the first exception. -/
noncomputable def pushAll (x : Fin d → ℝ) : List (Fin d) → (Fin d → RawVol Sk) → (Fin d → RawVol Sk) × Except PyErr Unit
  | [], vols => (vols, .ok ())
  | i :: is, vols =>
    match (vols i).push (x i) with
    | (v, .ok ()) => pushAll x is (Function.update vols i v)
    | (v, .error e) => (Function.update vols i v, .error e)

/-- One row with the sub-models in place (`conditional.py:141-152`). -/
noncomputable def stepState (s : RawCondState Sk C) (x : Fin d → ℝ) : RawCondState Sk C × Except PyErr Unit :=
  let eps : Fin d → ℝ := fun i => (x i - (s.vols i).mean) / Real.sqrt (max (s.vols i).var EPS)    -- lines 144-146
  let s := { s with corrModel := (s.corrModel.partialFit (.row eps)).1 }                 -- line 147
  match pushAll x (List.finRange d) s.vols with                                          -- lines 148-149
  | (vols, .error e) => ({ s with vols := vols }, .error e)
  | (vols, .ok ()) =>
    ({ s with
      vols := vols
      mean := fun i => (vols i).mean                                                     -- line 150
      var := fun i => max (vols i).var EPS                                               -- line 151
      nSamples := s.nSamples + 1 }, .ok ())                                              -- line 152

/-- The state created for the first row (`conditional.py:135-140`). -/
def initState (o : RawCond Sk C) : RawCondState Sk C :=
  { vols := fun _ => ⟨o.f, none, 0, 1⟩, corrModel := o.corr.clone, nSamples := 0, mean := fun _ => 0, var := fun _ => 1 }

/-- `partial_fit` of one row (`conditional.py:133-153`). -/
noncomputable def partialFit (o : RawCond Sk C) (x : Fin d → ℝ) : RawCond Sk C × Except PyErr Unit :=
  let r := stepState (o.state.getD o.initState) x
  ({ o with state := some r.1 }, r.2)

/-- `fit(X)` on a batch (`base.py:65-72`): `_state = None`, then `partial_fit` row by row, left at the first exception. -/
noncomputable def feedRows (o : RawCond Sk C) : List (Fin d → ℝ) → RawCond Sk C × Except PyErr Unit
  | [] => (o, .ok ())
  | x :: xs =>
    match o.partialFit x with
    | (o', .ok ()) => feedRows o' xs
    | (o', .error e) => (o', .error e)

/-- `fit(X)` of `ConditionalCovariance`, inherited (`base.py:65-72`). -/
noncomputable def fit (o : RawCond Sk C) (xs : List (Fin d → ℝ)) : RawCond Sk C × Except PyErr Unit := feedRows { o with state := none } xs

/-- `_fitted_state()` (`base.py:74-80`). -/
def fittedState (o : RawCond Sk C) : Except PyErr (RawCondState Sk C) :=
  match o.state with
  | none => .error .notFitted
  | some s => if s.nSamples < 1 then .error .notFitted else .ok s

/-- `n_samples_` (`base.py:83-85`). -/
def nSamples (o : RawCond Sk C) : ℕ :=
  match o.state with
  | none => 0
  | some s => s.nSamples

/-- `location_` (`base.py:87-89`). -/
def location (o : RawCond Sk C) : Except PyErr (Fin d → ℝ) := o.fittedState.map RawCondState.mean

/-- `covariance_` (`base.py:91-94`, `conditional.py:155-159`). -/
noncomputable def covariance (o : RawCond Sk C) : Except PyErr (Matrix (Fin d) (Fin d) ℝ) := do
  let s ← o.fittedState
  let R ← s.corrModel.correlation
  let sd : Fin d → ℝ := fun i => Real.sqrt (max (s.var i) EPS)
  return toSymmetric (Matrix.of fun i j => R i j * (sd i * sd j))

end RawCond

end Precise
