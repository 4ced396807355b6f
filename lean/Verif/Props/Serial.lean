import Verif.Model.Registry
import Verif.Model.History
import Verif.Lemmas.Linalg

/-!
# C63: `get_state` returns plain, JSON-friendly data

`json.dumps` accepts ints, floats and (nested) lists of them, and refuses numpy arrays. The values of the state dicts are
ints, floats and arrays; the theorem says that none of the arrays is left in the result of `get_state`, that the keys are
distinct, and that the two keys every reader needs are there with the right values.
-/

set_option linter.all false

namespace Precise

/-- Specification: a Python value `json.dumps` can write (an int, a float or a nested list; a list of NaNs is
written as `NaN`). -/
def JsonFriendly {ι K : Type} : PyVal ι K → Prop
  | .int _ | .float _ | .lvec _ | .lmat _ | .lrows _ | .lmats _ | .lnanMat => True
  | .vec _ | .mat _ | .rows _ | .mats _ | .nanMat => False

/-- Specification of the result of `get_state` on an estimator of `p` variables that has seen `n` observations. -/
structure PlainDump (p : ℕ) (n : ℕ) (d : Dict (Fin p) ℝ) : Prop where
  plain : ∀ k v, (k, v) ∈ d → JsonFriendly v
  nodup : (d.map Prod.fst).Nodup
  nDim : d.lookup "n_dim" = some (.int p)
  nSamples : d.lookup "n_samples" = some (.int n)

theorem jsonFriendly_tolist {ι K : Type} (v : PyVal ι K) : JsonFriendly v.tolist := by
  cases v <;> simp [PyVal.tolist, JsonFriendly]

theorem plainDump_tolist {p n : ℕ} {d : Dict (Fin p) ℝ} (hn : (d.map Prod.fst).Nodup)
    (h1 : d.lookup "n_dim" = some (.int p)) (h2 : d.lookup "n_samples" = some (.int n)) : PlainDump p n d.tolist := by
  have hl : ∀ (d : Dict (Fin p) ℝ) k, d.tolist.lookup k = (d.lookup k).map PyVal.tolist := by
    intro d k
    induction d with
    | nil => rfl
    | cons a d ih =>
      obtain ⟨a, v⟩ := a
      simp only [Dict.tolist, List.map_cons, List.lookup_cons]
      split
      · rfl
      · exact ih
  refine ⟨?_, ?_, ?_, ?_⟩
  · intro k v hv
    obtain ⟨⟨k', v'⟩, _, h⟩ := List.mem_map.1 hv
    simp only [Prod.mk.injEq] at h
    exact h.2 ▸ jsonFriendly_tolist v'
  · have : d.tolist.map Prod.fst = d.map Prod.fst := by simp [Dict.tolist, Function.comp_def]
    rw [this]; exact hn
  · rw [hl, h1]; rfl
  · rw [hl, h2]; rfl

/-- C63: for every shipped estimator except `BlockCovariance` (whose `get_state` builds its own record of lists), on every
instance, `get_state` is `None` exactly on an unfitted instance and otherwise a dict with distinct keys, all of whose values
are ints, floats or nested lists, with `n_dim` the number of variables and `n_samples` the count of observations. -/
theorem C63_get_state_plain (L : Lapack) (p : ℕ) (name : String) (C : Cls (Fin p) ℝ)
    (hC : (name, C) ∈ registry L p) (hb : name ≠ "BlockCovariance") :
    ∃ h : C.Dump = Dict (Fin p) ℝ, ∀ o : Obj C,
      (o.getState = none ↔ o.state = none) ∧
      ∀ d, o.getState = some d → PlainDump p o.nSamples (h.mp d) := by
  simp only [registry, List.mem_cons, List.not_mem_nil, or_false, Prod.mk.injEq] at hC
  rcases hC with ⟨rfl, rfl⟩ | ⟨rfl, rfl⟩ | ⟨rfl, rfl⟩ | ⟨rfl, rfl⟩ | ⟨rfl, rfl⟩ | ⟨rfl, rfl⟩ | ⟨rfl, rfl⟩ | ⟨rfl, rfl⟩ |
    ⟨rfl, rfl⟩ | ⟨rfl, rfl⟩ | ⟨rfl, rfl⟩ | ⟨rfl, rfl⟩ | ⟨rfl, rfl⟩ | ⟨rfl, rfl⟩ | ⟨rfl, rfl⟩ | ⟨rfl, rfl⟩ | ⟨rfl, rfl⟩
  case inr.inr.inl => exact absurd rfl hb
  all_goals
    refine ⟨rfl, fun o => ⟨by simp [Obj.getState], fun d hd => ?_⟩⟩
    unfold Obj.getState at hd
    obtain ⟨s, hs, rfl⟩ := Option.map_eq_some_iff.1 hd
    have hc : o.nSamples = Cls.nSamples _ s := by unfold Obj.nSamples; rw [hs]
    rw [hc]
    refine plainDump_tolist ?_ ?_ ?_ <;>
      simp [EmpState.asDict, EwaState.asDict, DiagState.asDict, LWState.asDict, PMState.asDict, AdaState.asDict,
        TylerState.asDict, DCCState.asDict, FactorState.asDict, SLWState.asDict, empiricalCls, ewaCls, diagonalCls,
        ledoitWolfCls, oasCls, shrunkCls, schurCls, schurCondCls, schurLWCls, partialMomentsCls, huberCls, tylerCls,
        geodesicCls, dccCls, factorCls, adaptiveCls, List.lookup_cons]

/-- Two observations of a bivariate stream through `EmpiricalCovariance`: there is a dict, with `n_samples` equal to 2. -/
example (x y : Fin 2 → ℝ) :
    ∃ d : Dict (Fin 2) ℝ, ((Obj.new (empiricalCls (Fin 2) ℝ) false).run [.fit (.batch [x, y])]).getState = some d ∧
      PlainDump 2 2 d := by
  obtain ⟨h, H⟩ := C63_get_state_plain Lapack.exact 2 "EmpiricalCovariance" (empiricalCls (Fin 2) ℝ)
    (by simp [registry]) (by decide)
  exact ⟨_, rfl, (H ((Obj.new (empiricalCls (Fin 2) ℝ) false).run [.fit (.batch [x, y])])).2 _ rfl⟩

end Precise
