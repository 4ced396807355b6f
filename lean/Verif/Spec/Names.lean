import Verif.Spec.Keyed
import Verif.Spec.Symmetry

/-!
# Specification vocabulary: renaming and reordering keyed observations
-/

namespace Precise.Spec

variable {Key Key' : Type} [DecidableEq Key] [DecidableEq Key']

/-- `x'` is the observation `x` with every name `k` written `ρ k`; its items may be in another order. -/
structure Renamed (ρ : Key → Key') (x : KDict Key) (x' : KDict Key') : Prop where
  value : ∀ k, x'.get? (ρ k) = x.get? k
  names : ∀ k' ∈ x'.keys, ∃ k, ρ k = k'

/-- `x'` is `x` with every name `k` written `ρ k`, item by item. -/
def RenamedInOrder (ρ : Key → Key') (x : KDict Key) (x' : KDict Key') : Prop := x'.items = x.items.map fun kv => (ρ kv.1, kv.2)

/-- The same list of names, renamed, in any order. -/
def SameNames (ρ : Key → Key') (ks : List Key) (ks' : List Key') : Prop := ∀ k', k' ∈ ks' ↔ ∃ k ∈ ks, ρ k = k'

/-- Permuting the columns fed to the wrapped estimator permutes `location_` and `covariance_` and does nothing else. -/
def OrderFree (P : Proto) : Prop := ∀ (d d' : ℕ) (e : Fin d ≃ Fin d'),
  Transports (P.cls d) (P.cls d') (P.par d) (P.par d') (relabelVec e) (relabelVec e) (relabelMat e)

/-- `m'` labels with the new names what `m` labels with the old ones: the names are the renamed names, and the number under a
pair of new names is the number under the pair of old names, wherever they stand. -/
def RenamedAnswer (ρ : Key → Key') (m : KeyedMat Key) (m' : KeyedMat Key') : Prop :=
  SameNames ρ m.1 m'.1 ∧ ∀ (i j : Fin m.1.length) (i' j' : Fin m'.1.length), m'.1.get i' = ρ (m.1.get i) → m'.1.get j' = ρ (m.1.get j) →
    m'.2 i' j' = m.2 i j

/-- Two calls both return, with related results, or both raise the same error. -/
def BothAnswer {α β : Type} (R : α → β → Prop) : Except PyErr α → Except PyErr β → Prop
  | .ok a, .ok b => R a b
  | .error e, .error e' => e = e'
  | _, _ => False

/-- The universes given to two `FixedUniverse`s: none for both, or the same distinct names up to renaming and order. -/
def RenamedKeys (ρ : Key → Key') : Option (List Key) → Option (List Key') → Prop
  | none, none => True
  | some ks, some ks' => ks.Nodup ∧ ks'.Nodup ∧ SameNames ρ ks ks'
  | _, _ => False

end Precise.Spec
