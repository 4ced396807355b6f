import Verif.Model.Blocks
import Verif.Model.History

/-!
# The attribute `gamma_` of SchurLedoitWolfCovariance and SchurConditionalCovariance

`gamma_` is written as a side effect of `_state_to_cov` (`schur_ledoit_wolf.py:85`, `schur_conditional.py:89`), that is, whenever an accessor
computes `covariance_`. This is the only thing an accessor of the package writes. Not modelled: `set_params(gamma_=...)`.
-/

namespace Precise

variable {ι : Type}

/-- The accessors of an estimator (`base.py:82-147`). -/
inductive Attr (ι : Type)
  | nSamples | location | covariance | correlation | precision | getPrecision | getParams | getState
  | mahalanobis (X : Input ι ℝ)
  | score (X : Input ι ℝ)

/-- Does the accessor get as far as computing `covariance_`? `correlation_` and `precision_` do (`base.py:96-105`); `mahalanobis` and `score`
convert their argument first (`base.py:108-111`, `base.py:115-118`). -/
def Attr.readsCov : Attr ι → Bool
  | .covariance | .correlation | .precision | .getPrecision => true
  | .mahalanobis X | .score X => match asRows X with | .ok _ => true | .error _ => false
  | .nSamples | .location | .getParams | .getState => false

/-- What happens to an instance: calls that may change the estimate, and accessors. `reload` is `pickle.loads(pickle.dumps(est))`
(also `copy.deepcopy`), after which the copy is used (`base.py:50-102,134-137,149-176`). -/
inductive Ev (C : Cls ι ℝ)
  | call (c : Call ι ℝ)
  | setParams (p : C.Param)
  | setState (d : Option C.Dump)
  | reload
  | attr (a : Attr ι)

/-- An instance with its attribute `gamma_` (`None` in `__init__`: `schur_ledoit_wolf.py:42`, `schur_conditional.py:43`). -/
structure Snap (C : Cls ι ℝ) where
  obj : Obj C
  gamma : Option ℝ

/-- A new instance (`schur_ledoit_wolf.py:38-43`, `schur_conditional.py:39-44`). -/
def Snap.new (C : Cls ι ℝ) (p : C.Param) : Snap C := ⟨Obj.new C p, none⟩

/-- One event. `hook p s` is the number that `_state_to_cov` assigns to `gamma_` (`none`: it raises before the assignment). -/
def Snap.step [Fintype ι] {C : Cls ι ℝ} (hook : C.Param → C.State → Option ℝ) (o : Snap C) : Ev C → Snap C
  | .call c => ⟨o.obj.call c, o.gamma⟩                                      -- base.py:50-72 does not touch `gamma_`
  | .setParams p => ⟨o.obj.setParams p, o.gamma⟩                            -- base.py:134-137
  | .setState d => ⟨o.obj.setState d, o.gamma⟩                              -- base.py:149-161
  | .reload => ⟨Obj.ofPickle o.obj.toPickle, none⟩                          -- base.py:163-176: `gamma_` is not stored, `__init__` sets `None`
  | .attr a =>
    if a.readsCov then
      match o.obj.fittedState with
      | .error _ => o                                                       -- NotFittedError before `_state_to_cov`
      | .ok s => ⟨o.obj, (hook o.obj.params s).orElse fun _ => o.gamma⟩     -- schur_ledoit_wolf.py:85, schur_conditional.py:89
    else o

/-- The instance after a list of events (`base.py:50-102,134-137,149-176`). -/
def Snap.run [Fintype ι] {C : Cls ι ℝ} (hook : C.Param → C.State → Option ℝ) (o : Snap C) (es : List (Ev C)) : Snap C :=
  es.foldl (Snap.step hook) o

/-- SchurLedoitWolfCovariance: `_cross_mask` raises for `n_blocks <= 0` (`schur_ledoit_wolf.py:45-50`) before the assignment in line 85. -/
noncomputable def slwHook (L : Lapack) (p : ℕ) (pr : (schurLWCls L p).Param) (s : (schurLWCls L p).State) : Option ℝ :=
  if min (BlockParam.nBlocks pr) p ≤ 0 then none else some (slwGamma pr s)

/-- SchurConditionalCovariance: the assignment (`schur_conditional.py:89`) precedes the regressions that can raise (line 102). -/
noncomputable def scHook (L : Lapack) (p : ℕ) (pr : (schurCondCls L p).Param) (s : (schurCondCls L p).State) : Option ℝ :=
  some (scGammaOf pr s)

end Precise
