import Verif.Model.Cost
import Verif.Model.Keyed

/-!
# `DynamicUniverse.update` with its work counted

`c d` is what one `partial_fit` of the wrapped estimator costs on `d` variables; going over a universe without updating it costs one
(`keyed.py:230-234`).
-/

namespace Precise

variable {Key : Type} [DecidableEq Key] {P : Proto}

/-- A loop over the entries of a dict (`keyed.py:230-234`): the work of the entries adds up. -/
def Tick.list {α β : Type} (l : List α) (f : α → Tick β) : Tick (List β) := ⟨l.map fun a => (f a).val, (l.map fun a => (f a).ops).sum⟩

namespace DynU

/-- The loop body `keyed.py:230-234`, counted. -/
def touchT (c : ℕ → ℕ) (x : KDict Key) (nu : ℕ × Universe P Key) : Tick (ℕ × Universe P Key) :=
  if nu.2.within x.keys then ⟨(nu.1, nu.2.update x), c nu.2.keys.length⟩                 -- lines 231-232
  else ⟨(nu.1, { nu.2 with staleness := nu.2.staleness + 1 }), 1⟩                        -- lines 233-234

/-- `update(x)` (`keyed.py:226-248`), counted. -/
def updateT (c : ℕ → ℕ) (D : DynU P Key) (x : KDict Key) : Tick (DynU P Key) := do
  let touched ← Tick.list D.states (touchT c x)                                          -- lines 230-234
  let s := touched.filter fun nu => decide ((nu.2.staleness : ℤ) ≤ D.maxStaleness)       -- lines 236-237
  if s.any fun nu => nu.2.sameKeys x.keys then return { D with x := some x, states := s }   -- line 239
  else
    let fresh ← (⟨(Universe.fresh P x.keys).update x, c x.keys.length⟩ : Tick (Universe P Key))   -- lines 240-241
    let s' := s ++ [(D.counter, fresh)]                                                  -- line 242
    return { D with
      x := some x
      counter := D.counter + 1
      states := if D.maxUniverses < (s'.length : ℤ) then evict s' else s' }              -- lines 243-247

end DynU

end Precise
