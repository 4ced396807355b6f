import Verif.Model.Conditional

/-!
# ConditionalCovariance with rows of run-time length (`precise/conditional.py:133-153`)

Once `d` series are in place, a row is whatever list the caller passes. For `d ≠ 1` the standardized row always has
length `d` or an exception is raised, so the correlation model stays `d`-dimensional and the typed sub-models can be kept.
(Not covered: `d = 1`, where a longer row is broadcast to its own length.)
-/

namespace Precise

variable {d : ℕ} {V : Cls (Fin 1) ℝ} {Sk : Type} {C : Cls (Fin d) ℝ}

namespace CondObj

/-- `for i, vm in enumerate(models): vm.push(float(x[i]))` (`conditional.py:148-149`), left at the first missing entry with an
IndexError; the models pushed before keep what they learned. -/
noncomputable def pushList (x : List ℝ) : List (Fin d) → (Fin d → VolModel V Sk) → (Fin d → VolModel V Sk) × Except PyErr Unit
  | [], vols => (vols, .ok ())
  | i :: is, vols =>
    match x[i.1]? with
    | none => (vols, .error .indexError)
    | some y => pushList x is (Function.update vols i ((vols i).push y))

/-- `x - m` against `d` forecasts (`conditional.py:146`): the row itself, one number repeated, or a ValueError (numpy broadcasting,
`d ≠ 1`). -/
def broadcastRow (d : ℕ) (x : List ℝ) : Except PyErr (Fin d → ℝ) :=
  if h : x.length = d then .ok fun i => x.get (i.cast h.symm)
  else match x with
    | [a] => .ok fun _ => a
    | _ => .error .valueError

/-- One row of any length with the sub-models in place (`conditional.py:141-152`). -/
noncomputable def stepList (s : CondState V Sk C) (x : List ℝ) : CondState V Sk C × Except PyErr Unit :=
  match broadcastRow d x with
  | .error e => (s, .error e)                                                            -- line 146 raises
  | .ok x' =>
    let eps : Fin d → ℝ := fun i => (x' i - (s.vols i).mean) / Real.sqrt (max (s.vols i).variance EPS)
    let s := { s with corrModel := (s.corrModel.partialFit (.row eps)).1 }               -- line 147
    match pushList x (List.finRange d) s.vols with                                       -- lines 148-149
    | (vols, .error e) => ({ s with vols := vols }, .error e)
    | (vols, .ok ()) =>
      ({ s with
        vols := vols
        mean := fun i => (vols i).mean                                                   -- line 150
        var := fun i => max (vols i).variance EPS                                        -- line 151
        nSamples := s.nSamples + 1 }, .ok ())                                            -- line 152

/-- `partial_fit(x)` of a 1d input of any length on an object that has seen a row of length `d` (`conditional.py:133-153`). -/
noncomputable def partialFitList (o : CondObj V Sk C) (x : List ℝ) : CondObj V Sk C × Except PyErr Unit :=
  match o.state with
  | none => (o, .ok ())  -- not used: the first row decides `d`, see `stepRow`
  | some s => let r := stepList s x; ({ o with state := some r.1 }, r.2)

end CondObj

end Precise
