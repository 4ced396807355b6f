import Verif.Model.Keyed
import Verif.Spec.Conditional

/-!
# Specification vocabulary for the keyed adapters
-/

namespace Precise.Spec

variable {Key : Type} [DecidableEq Key]

/-- The observation as a vector in the order of `ks` (0 for a key that is missing). -/
def rowOf (ks : List Key) (x : KDict Key) : Fin ks.length → ℝ := fun i => (x.get? (ks.get i)).getD 0

/-- The observation contains all of `ks`. -/
def hasAll (ks : List Key) (x : KDict Key) : Prop := ∀ k ∈ ks, k ∈ x.keys

instance (ks : List Key) (x : KDict Key) : Decidable (hasAll ks x) := by unfold hasAll; infer_instance

/-- The observations from time `t` on that contain all of `ks`, in order. -/
def subStream (X : List (KDict Key)) (t : ℕ) (ks : List Key) : List (KDict Key) := (X.drop t).filter fun x => decide (hasAll ks x)

/-- The number of observations at the end of the stream (from time `t` on) since the last that contained all of `ks`. -/
def idle (X : List (KDict Key)) (t : ℕ) (ks : List Key) : ℕ :=
  ((X.drop t).reverse.takeWhile fun x => !decide (hasAll ks x)).length

/-- Two key lists name the same set. -/
def SameSet (a b : List Key) : Prop := ∀ k, k ∈ a ↔ k ∈ b

/-- The most recent value of `k` in the stream, 0 if it never appeared. -/
def lastSeen (X : List (KDict Key)) (k : Key) : ℝ := X.foldl (fun v x => (x.get? k).getD v) 0

/-- The universe of a FixedUniverse: the keys given, or those of the first observation. -/
def universeOf (keys : Option (List Key)) (X : List (KDict Key)) : List Key :=
  keys.getD ((X.head?.map KDict.keys).getD [])

/-- A new wrapped estimator fed the rows `ys` one at a time. -/
def wrapped (P : Proto) (d : ℕ) (ys : List (Fin d → ℝ)) : Obj (P.cls d) := (P.make d).run (feedCalls ys)

/-- The universe `u` has an estimate `v` of the covariance of the names `ki` and `kj`. -/
def Tells {P : Proto} (u : Universe P Key) (ki kj : Key) (v : ℝ) : Prop :=
  ∃ (c : Matrix (Fin u.keys.length) (Fin u.keys.length) ℝ) (i j : Fin u.keys.length),
    u.est.covariance = .ok c ∧ u.keys.get i = ki ∧ u.keys.get j = kj ∧ v = c i j

/-- What the live universes say about a pair: nothing, if none has an estimate; else the estimate of the longest-lived,
then least stale, then oldest (smallest id) one that has. -/
def PairSays {P : Proto} (states : List (ℕ × Universe P Key)) (ki kj : Key) : Option ℝ → Prop
  | none => ∀ nu ∈ states, ∀ v, ¬ Tells nu.2 ki kj v
  | some v => ∃ nu ∈ states, Tells nu.2 ki kj v ∧ ∀ nu' ∈ states, (∃ v', Tells nu'.2 ki kj v') →
      nu'.2.longevity < nu.2.longevity ∨ (nu'.2.longevity = nu.2.longevity ∧
        (nu.2.staleness < nu'.2.staleness ∨ (nu.2.staleness = nu'.2.staleness ∧ nu.1 ≤ nu'.1)))

/-- The mean of the known off-diagonal entries of a partly known matrix, 0 if there are none. -/
noncomputable def offDiagMean {n : ℕ} (M : Fin n → Fin n → Option ℝ) : ℝ :=
  let known : Finset (Fin n × Fin n) := Finset.univ.filter fun ab => ab.1 ≠ ab.2 ∧ (M ab.1 ab.2).isSome
  if known = ∅ then 0 else (∑ ab ∈ known, (M ab.1 ab.2).getD 0) / (known.card : ℝ)

end Precise.Spec
