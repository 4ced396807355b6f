import Verif.Props.Interrupted

/-!
# C111, part 2: DynamicUniverse
-/

set_option linter.all false

open Matrix

namespace Precise

open Spec

variable {Key : Type} [DecidableEq Key] {P : Proto}

namespace DynU

theorem readable_iff (u : Universe P Key) (x : RawDict Key) : u.readable x = true ↔ ∀ k ∈ u.keys, x.get? k ≠ some none := by
  unfold Universe.readable
  rw [List.all_eq_true]
  refine forall₂_congr fun k _ => ?_
  rcases x.get? k with _ | v
  · simp
  · cases v <;> simp

/-- What the loop does to one universe it gets past. -/
def touchRaw (x : RawDict Key) (nu : ℕ × Universe P Key) : ℕ × Universe P Key :=
  if nu.2.within x.keys then (nu.1, nu.2.update x.numbers) else (nu.1, { nu.2 with staleness := nu.2.staleness + 1 })

theorem touchAll_ok (x : RawDict Key) (l : List (ℕ × Universe P Key))
    (h : ∀ nu ∈ l, nu.2.within x.keys = true → nu.2.readable x = true) : touchAll x l = (l.map (touchRaw x), true) := by
  induction l with
  | nil => rfl
  | cons nu l ih =>
    rw [touchAll, ih fun m hm => h m (List.mem_cons_of_mem _ hm), List.map_cons, touchRaw]
    by_cases hw : nu.2.within x.keys = true
    · rw [if_pos hw, if_pos (h nu (by simp) hw), if_pos hw]
    · rw [if_neg hw, if_neg hw]

theorem touchAll_bad (x : RawDict Key) (pre post : List (ℕ × Universe P Key)) (b : ℕ × Universe P Key)
    (h : ∀ nu ∈ pre, nu.2.within x.keys = true → nu.2.readable x = true) (hb : b.2.within x.keys = true) (hb' : b.2.readable x = false) :
    touchAll x (pre ++ b :: post) = (pre.map (touchRaw x) ++ b :: post, false) := by
  induction pre with
  | nil => rw [List.nil_append, touchAll, if_pos hb, if_neg (by rw [hb']; simp)]; rfl
  | cons nu l ih =>
    rw [List.cons_append, touchAll, ih fun m hm => h m (List.mem_cons_of_mem _ hm), List.map_cons, touchRaw]
    by_cases hw : nu.2.within x.keys = true
    · rw [if_pos hw, if_pos (h nu (by simp) hw), if_pos hw]; rfl
    · rw [if_neg hw, if_neg hw]; rfl

theorem touchAll_flag (x : RawDict Key) (l : List (ℕ × Universe P Key)) :
    (touchAll x l).2 = false ↔ ∃ nu ∈ l, nu.2.within x.keys = true ∧ nu.2.readable x = false := by
  induction l with
  | nil => simp [touchAll]
  | cons nu l ih =>
    rw [touchAll]
    by_cases hw : nu.2.within x.keys = true
    · rw [if_pos hw]
      by_cases hr : nu.2.readable x = true
      · rw [if_pos hr]
        simp only [ih, List.mem_cons, exists_eq_or_imp, hw, hr]
        simp
      · rw [if_neg hr]
        simp only [true_iff]
        exact ⟨nu, by simp, hw, by simpa using hr⟩
    · rw [if_neg hw]
      simp only [ih, List.mem_cons, exists_eq_or_imp, hw]
      simp

theorem touchRaw_good {x : RawDict Key} (h : x.Good) : (touchRaw (P := P) x) = touch x.numbers := by
  funext nu
  unfold touchRaw touch
  rw [RawDict.numbers_keys h]

theorem tryUpdate_good (D : DynU P Key) {x : RawDict Key} (h : x.Good) : D.tryUpdate x = (D.update x.numbers, .ok ()) := by
  have hr : ∀ u : Universe P Key, u.readable x = true := fun u => (readable_iff u x).2 fun k _ => RawDict.good_iff.1 h k
  unfold tryUpdate update
  simp only []
  rw [touchAll_ok x D.states fun nu _ _ => hr nu.2]
  simp only [Bool.true_eq_false, if_false, hr, if_true]
  rw [touchRaw_good h, RawDict.copy_eq h]
  show (if ((D.survivors x.numbers).any _) = true then _ else _) = _
  rw [← RawDict.numbers_keys h]
  split <;> rfl

theorem tryUpdate_bad (D : DynU P Key) {x : RawDict Key} (h : ¬ x.Good) : (D.tryUpdate x).2 = .error .valueError ∧
    (D.tryUpdate x).1.x = some x.copy ∧ (D.tryUpdate x).1.counter = D.counter ∧
    (D.tryUpdate x).1.maxStaleness = D.maxStaleness ∧ (D.tryUpdate x).1.maxUniverses = D.maxUniverses ∧
    (D.tryUpdate x).1.states = if (touchAll x D.states).2 = false then (touchAll x D.states).1 else
      (touchAll x D.states).1.filter fun nu => decide ((nu.2.staleness : ℤ) ≤ D.maxStaleness) := by
  obtain ⟨k, hk⟩ : ∃ k, x.get? k = some none := by
    by_contra hc
    push Not at hc
    exact h (RawDict.good_iff.2 hc)
  have hkm : k ∈ x.keys := RawDict.mem_keys.2 ⟨_, hk⟩
  unfold tryUpdate
  simp only []
  by_cases hf : (touchAll x D.states).2 = false
  · rw [if_pos hf, if_pos hf]; exact ⟨rfl, rfl, rfl, rfl, rfl, rfl⟩
  · rw [if_neg hf, if_neg hf]
    have hall : ∀ nu ∈ D.states, nu.2.within x.keys = true → nu.2.readable x = true := by
      intro nu hn hw
      by_contra hc
      exact hf ((touchAll_flag x D.states).2 ⟨nu, hn, hw, by simpa using hc⟩)
    rw [touchAll_ok x D.states hall]
    simp only []
    rw [if_neg, if_neg]
    · exact ⟨rfl, rfl, rfl, rfl, rfl, rfl⟩
    · rw [readable_iff]
      intro hc
      exact hc k hkm hk
    · intro hany
      obtain ⟨nu, hn, hs⟩ := List.any_eq_true.1 hany
      obtain ⟨m, hm, rfl⟩ := List.mem_map.1 (List.mem_filter.1 hn).1
      have hkeys : (touchRaw x m).2.keys = m.2.keys := by unfold touchRaw; split <;> rfl
      have hss := (Universe.sameKeys_iff _ _).1 hs
      rw [hkeys] at hss
      have hw : m.2.within x.keys = true := (Universe.within_iff _ _).2 fun a ha => (hss a).1 ha
      exact (readable_iff m.2 x).1 (hall m hm hw) k ((hss k).2 hkm) hk

end DynU

open DynU

/-- C111: `DynamicUniverse.learn_one(x)` raises exactly when some value of the observation does not convert, whatever the state; when
all do, it is the update of C44–C48. -/
theorem C111_dyn_raises_iff (D : DynU P Key) (x : RawDict Key) :
    ((D.tryUpdate x).2 = .error .valueError ↔ ∃ kv ∈ x.items, kv.2 = none) ∧
    ((∀ kv ∈ x.items, kv.2 ≠ none) → D.tryUpdate x = (D.update x.numbers, .ok ())) := by
  refine ⟨⟨fun h => ?_, fun h => ?_⟩, fun h => tryUpdate_good D h⟩
  · by_contra hc
    push Not at hc
    rw [tryUpdate_good D hc] at h
    cases h
  · obtain ⟨kv, hk, e⟩ := h
    exact (tryUpdate_bad D fun hg => hg kv hk e).1

/-- C111 (finding): a rejected observation is half learned. The universes are visited in order of creation. Up to the first one, `b`,
that lies inside the observation and contains a bad key they have been updated for good (fed the observation, or one step staler);
`b` and the ones after it are as before — not even staler. No universe is added or dropped. -/
theorem C111_dyn_torn (D : DynU P Key) (x : RawDict Key) (pre post : List (ℕ × Universe P Key)) (b : ℕ × Universe P Key)
    (hD : D.states = pre ++ b :: post) (hb : ∀ k ∈ b.2.keys, k ∈ x.keys) (hbad : ∃ k ∈ b.2.keys, x.get? k = some none)
    (hpre : ∀ nu ∈ pre, (∀ k ∈ nu.2.keys, k ∈ x.keys) → ∀ k ∈ nu.2.keys, x.get? k ≠ some none) :
    (D.tryUpdate x).2 = .error .valueError ∧
    (D.tryUpdate x).1.states = pre.map (fun nu => if ∀ k ∈ nu.2.keys, k ∈ x.keys then (nu.1, nu.2.update x.numbers)
      else (nu.1, { nu.2 with staleness := nu.2.staleness + 1 })) ++ b :: post := by
  have hg : ¬ x.Good := by
    obtain ⟨k, -, hk⟩ := hbad
    exact fun h => RawDict.good_iff.1 h k hk
  obtain ⟨h1, -, -, -, -, h6⟩ := tryUpdate_bad D hg
  refine ⟨h1, ?_⟩
  have hr : b.2.readable x = false := by
    by_contra hc
    obtain ⟨k, hk, hkb⟩ := hbad
    exact (readable_iff b.2 x).1 (by simpa using hc) k hk hkb
  have := touchAll_bad x pre post b (fun nu hn hw => (readable_iff _ _).2 (hpre nu hn ((Universe.within_iff _ _).1 hw)))
    ((Universe.within_iff _ _).2 hb) hr
  rw [h6, hD, this, if_pos rfl]
  show pre.map (touchRaw x) ++ b :: post = _
  congr 1
  refine List.map_congr_left fun nu _ => ?_
  unfold touchRaw
  by_cases hw : ∀ k ∈ nu.2.keys, k ∈ x.keys
  · rw [if_pos hw, if_pos ((Universe.within_iff _ _).2 hw)]
  · rw [if_neg hw, if_neg (fun h => hw ((Universe.within_iff _ _).1 h))]

/-- C111: if no universe inside the observation contains a bad key, all of them are updated and the stale ones dropped as usual, but no
universe is created for the key set of the rejected observation and no id is used up. In every case a query without names now asks
about the names of the rejected observation, the bad ones included. -/
theorem C111_dyn_rejected (D : DynU P Key) (x : RawDict Key) (h : (D.tryUpdate x).2 = .error .valueError) :
    (D.tryUpdate x).1.counter = D.counter ∧ (D.tryUpdate x).1.resolveKeys .all = .ok x.keys ∧
    ((∀ nu ∈ D.states, (∀ k ∈ nu.2.keys, k ∈ x.keys) → ∀ k ∈ nu.2.keys, x.get? k ≠ some none) →
      (D.tryUpdate x).1.states = (D.states.map fun nu => if ∀ k ∈ nu.2.keys, k ∈ x.keys then (nu.1, nu.2.update x.numbers)
        else (nu.1, { nu.2 with staleness := nu.2.staleness + 1 })).filter fun nu => decide ((nu.2.staleness : ℤ) ≤ D.maxStaleness)) := by
  have hg : ¬ x.Good := by
    intro hg
    rw [tryUpdate_good D hg] at h
    cases h
  obtain ⟨h1, h2, h3, -, -, h6⟩ := tryUpdate_bad D hg
  refine ⟨h3, ?_, fun hall => ?_⟩
  · unfold resolveKeys
    rw [h2]
    simp only []
    rw [RawDict.copy_keys]
  · have := touchAll_ok x D.states (fun nu hn hw => (readable_iff _ _).2 (hall nu hn ((Universe.within_iff _ _).1 hw)))
    rw [h6, this, if_neg (by simp)]
    congr 1
    refine List.map_congr_left fun nu _ => ?_
    unfold touchRaw
    by_cases hw : ∀ k ∈ nu.2.keys, k ∈ x.keys
    · rw [if_pos hw, if_pos ((Universe.within_iff _ _).2 hw)]
    · rw [if_neg hw, if_neg (fun h => hw ((Universe.within_iff _ _).1 h))]

/-- C111 (finding): retrying double-counts. After a rejection the caller sends the corrected observation `y` (the same names, the same
values where they were usable). A universe that had been updated before the exception has then been fed the row twice, and counts two
observations; the universe that raised, and every one after it, has it once, as without the rejected call. -/
theorem C111_dyn_retry (D : DynU P Key) (hms : 0 ≤ D.maxStaleness) (x : RawDict Key) (y : KDict Key) (hkeys : y.keys = x.keys)
    (hval : ∀ k v, x.get? k = some (some v) → y.get? k = some v)
    (pre post : List (ℕ × Universe P Key)) (b : ℕ × Universe P Key)
    (hD : D.states = pre ++ b :: post) (hb : ∀ k, k ∈ b.2.keys ↔ k ∈ x.keys) (hbad : ∃ k ∈ b.2.keys, x.get? k = some none)
    (hpre : ∀ nu ∈ pre, (∀ k ∈ nu.2.keys, k ∈ x.keys) → ∀ k ∈ nu.2.keys, x.get? k ≠ some none)
    (nu : ℕ × Universe P Key) (hnu : ∀ k ∈ nu.2.keys, k ∈ x.keys) :
    (nu ∈ pre → (nu.1, (nu.2.update y).update y) ∈ ((D.tryUpdate x).1.update y).states ∧ (nu.1, nu.2.update y) ∈ (D.update y).states) ∧
    (nu ∈ b :: post → (nu.1, nu.2.update y) ∈ ((D.tryUpdate x).1.update y).states ∧ (nu.1, nu.2.update y) ∈ (D.update y).states) := by
  have hg : ¬ x.Good := by
    obtain ⟨k, -, hk⟩ := hbad
    exact fun h => RawDict.good_iff.1 h k hk
  obtain ⟨-, hst⟩ := C111_dyn_torn D x pre post b hD (fun k hk => (hb k).1 hk) hbad hpre
  have hms' := (tryUpdate_bad D hg).2.2.2.1
  -- an update with `y` feeds every universe inside `y`, because `b` has exactly its keys
  have step : ∀ (E : DynU P Key), 0 ≤ E.maxStaleness → b ∈ E.states → ∀ m ∈ E.states, (∀ k ∈ m.2.keys, k ∈ x.keys) →
      (m.1, m.2.update y) ∈ (E.update y).states := by
    intro E hE hbE m hm hmk
    have hsurv : ∀ m ∈ E.states, (∀ k ∈ m.2.keys, k ∈ x.keys) → (m.1, m.2.update y) ∈ E.survivors y := by
      intro m hm hmk
      unfold survivors
      rw [List.mem_filter]
      refine ⟨List.mem_map.2 ⟨m, hm, ?_⟩, ?_⟩
      · unfold touch
        rw [if_pos ((Universe.within_iff _ _).2 (by rw [hkeys]; exact hmk))]
      · show decide (((0 : ℕ) : ℤ) ≤ E.maxStaleness) = true
        simpa using hE
    obtain ⟨-, -, -, (⟨-, hs, -⟩ | ⟨hno, -⟩)⟩ := update_cases E y
    · rw [hs]; exact hsurv m hm hmk
    · exfalso
      refine hno _ (hsurv b hbE fun k hk => (hb k).1 hk) fun k => ?_
      show k ∈ b.2.keys ↔ _
      rw [hb k, hkeys]
  constructor
  · intro hn
    refine ⟨?_, step D hms (by rw [hD]; simp) nu (by rw [hD]; simp [hn]) hnu⟩
    have hrow : nu.2.update x.numbers = nu.2.update y := by
      have : nu.2.row x.numbers = nu.2.row y := by
        funext i
        unfold Universe.row
        have hk : nu.2.keys.get i ∈ nu.2.keys := List.get_mem _ _
        obtain ⟨v, hv⟩ := RawDict.mem_keys.1 (hnu _ hk)
        rw [RawDict.numbers_get?, hv]
        cases v with
        | none => exact absurd hv (hpre nu hn hnu _ hk)
        | some v => rw [hval _ _ hv]; rfl
      unfold Universe.update
      rw [this]
    refine step (D.tryUpdate x).1 (by rw [hms']; exact hms) (by rw [hst]; simp) (nu.1, nu.2.update y) ?_ hnu
    rw [hst]
    refine List.mem_append_left _ (List.mem_map.2 ⟨nu, hn, ?_⟩)
    rw [if_pos hnu, hrow]
  · intro hn
    refine ⟨step (D.tryUpdate x).1 (by rw [hms']; exact hms) (by rw [hst]; simp) nu ?_ hnu, step D hms (by rw [hD]; simp) nu (by rw [hD]; exact List.mem_append_right _ hn) hnu⟩
    rw [hst]
    exact List.mem_append_right _ hn

/-- C111: `learn_many` stops at the first observation with a bad value: the ones before are learned, the ones after it are not looked
at, and the exception is passed on. -/
theorem C111_dyn_learn_many (D : DynU P Key) (X Y : List (RawDict Key)) (x : RawDict Key) (hX : ∀ z ∈ X, z.Good) (hx : ¬ x.Good) :
    D.tryMany X = (D.learnMany (X.map RawDict.numbers), .ok ()) ∧
    D.tryMany (X ++ x :: Y) = (((D.learnMany (X.map RawDict.numbers)).tryUpdate x).1, .error .valueError) := by
  induction X generalizing D with
  | nil =>
    refine ⟨rfl, ?_⟩
    have hx' := (tryUpdate_bad D hx).1
    simp only [List.map_nil, DynU.learnMany, List.foldl_nil]
    rw [List.nil_append, DynU.tryMany]
    rcases h : D.tryUpdate x with ⟨U', r⟩
    rw [h] at hx'
    simp only at hx'
    subst hx'; rfl
  | cons z X ih =>
    have hz := tryUpdate_good D (hX z (by simp))
    have ih' := ih (D.update z.numbers) (fun w hw => hX w (List.mem_cons_of_mem _ hw))
    rw [List.cons_append, DynU.tryMany, DynU.tryMany, hz]
    exact ih'

/-! ### Witness -/

/-- `{"a": 1}` and `{"a": 2, "b": 0}` -/
noncomputable def demoTwo : List (KDict String) := [⟨[("a", 1)], by decide⟩, ⟨[("a", 2), ("b", 0)], by decide⟩]

/-- `{"a": 3, "b": "n/a"}` -/
noncomputable def demoNa : RawDict String := ⟨[("a", some 3), ("b", none)], by decide⟩

/-- `{"a": 3, "b": 1}` -/
noncomputable def demoFixed : KDict String := ⟨[("a", 3), ("b", 1)], by decide⟩

namespace DynU

theorem two_update {D : DynU P String} {u v : Universe P String} (hs : D.states = [(0, u), (1, v)]) (hu : u.keys = ["a"]) (hv : v.keys = ["a", "b"])
    (hms : D.maxStaleness = 50) (y : KDict String) (hy : y.keys = ["a", "b"]) :
    (D.update y).states = [(0, u.update y), (1, v.update y)] := by
  have wu : u.within y.keys = true := (Universe.within_iff _ _).2 (by rw [hu, hy]; simp)
  have wv : v.within y.keys = true := (Universe.within_iff _ _).2 (by rw [hv, hy]; simp)
  have hsv : D.survivors y = [(0, u.update y), (1, v.update y)] := by
    unfold survivors
    rw [hs, hms]
    simp only [List.map_cons, List.map_nil, touch, wu, wv, if_true]
    rfl
  obtain ⟨-, -, -, (⟨-, h, -⟩ | ⟨hno, -⟩)⟩ := update_cases D y
  · rw [h, hsv]
  · exfalso
    refine hno (1, v.update y) (by rw [hsv]; simp) ?_
    intro k
    show k ∈ v.keys ↔ k ∈ y.keys
    rw [hv, hy]

theorem two_pair {D : DynU P String} {u v : Universe P String} (hs : D.states = [(0, u), (1, v)]) (hl : v.longevity < u.longevity)
    (hu : "a" ∈ u.keys) (c : Matrix (Fin u.keys.length) (Fin u.keys.length) ℝ) (hc : u.est.covariance = .ok c) :
    D.pairValue "a" "a" = some (c ⟨u.keys.idxOf "a", List.idxOf_lt_length_iff.2 hu⟩ ⟨u.keys.idxOf "a", List.idxOf_lt_length_iff.2 hu⟩) := by
  have hr : u.runningCov = some c := (runningCov_iff u c).2 hc
  have hcand : firstMin preferLt (D.candidates "a" "a") = some (0, u) := by
    unfold candidates
    rw [hs]
    rw [List.filter_cons_of_pos (by simp [hu, hr])]
    by_cases hvv : (decide ("a" ∈ v.keys) && decide ("a" ∈ v.keys) && v.runningCov.isSome) = true
    · rw [List.filter_cons_of_pos (by exact hvv), List.filter_nil]
      have : preferLt (1, v) (0, u) = false := by
        unfold preferLt
        simp only [decide_eq_false_iff_not]
        omega
      simp [firstMin, this]
    · rw [List.filter_cons_of_neg (by exact hvv), List.filter_nil]
      rfl
  unfold pairValue
  rw [hcand]
  simp only [Option.bind_some, hr]
  rw [dif_pos ⟨List.idxOf_lt_length_iff.2 hu, List.idxOf_lt_length_iff.2 hu⟩]

theorem two_cov (L : Lapack) {D : DynU P String} {u v : Universe P String} (hs : D.states = [(0, u), (1, v)]) (hl : v.longevity < u.longevity)
    (hu : "a" ∈ u.keys) (c : Matrix (Fin u.keys.length) (Fin u.keys.length) ℝ) (hc : u.est.covariance = .ok c) (r : ℝ) (hr : 0 < r)
    (hcr : ∀ i j, c i j = r) : D.covArray L (.list ["a"]) = .ok ⟨["a"], Matrix.of fun _ _ => r⟩ := by
  rw [covArray_list L D (by simp)]
  have e : (Matrix.of fun a b : Fin ["a"].length => (D.pairValue (["a"].get a) (["a"].get b)).getD
      (offDiagMean fun a b => D.pairValue (["a"].get a) (["a"].get b))) = Matrix.of fun _ _ => r := by
    ext a b
    have h1 : ["a"].get a = "a" := by simpa using List.get_mem ["a"] a
    have h2 : ["a"].get b = "a" := by simpa using List.get_mem ["a"] b
    simp only [Matrix.of_apply]
    rw [h1, h2, two_pair hs hl hu c hc, hcr]; rfl
  rw [e]
  have hsym : toSymmetric (Matrix.of fun _ _ : Fin ["a"].length => r) = Matrix.of fun _ _ => r := toSymmetric_of_symm fun _ _ => rfl
  have hpd : PD (Matrix.of fun _ _ : Fin ["a"].length => r) := by
    refine ⟨fun _ _ => rfl, fun v hv => ?_⟩
    change Fin 1 → ℝ at v
    have h0 : v 0 ≠ 0 := fun h => hv (by funext i; change Fin 1 at i; fin_cases i; exact h)
    have : quad (Matrix.of fun _ _ : Fin 1 => r) v = r * (v 0 * v 0) := by
      simp [quad, dotProduct, mulVec]; ring
    show 0 < quad (Matrix.of fun _ _ : Fin 1 => r) v
    rw [this]
    exact mul_pos hr (mul_self_pos.2 h0)
  rw [nearestPosDef_id L (by rw [hsym]; exact hpd), hsym]

end DynU

/-- C111 (finding), the numbers: a `DynamicUniverse(EmpiricalCovariance())` learns `{a: 1}` and `{a: 2, b: 0}`, rejects
`{a: 3, b: "n/a"}`, and learns the corrected `{a: 3, b: 1}`. It reports the variance of `a` as 11/16, that of 1, 2, 3, 3; without the
rejected call it is 2/3, that of 1, 2, 3. -/
theorem C111_dyn_witness (L : Lapack) :
    let D := (DynU.new empProto 10 50).learnMany demoTwo
    (D.tryUpdate demoNa).2 = .error .valueError ∧
    ((D.tryUpdate demoNa).1.update demoFixed).covArray L (.list ["a"]) = .ok ⟨["a"], Matrix.of fun _ _ => 11 / 16⟩ ∧
    (D.update demoFixed).covArray L (.list ["a"]) = .ok ⟨["a"], Matrix.of fun _ _ => 2 / 3⟩ := by
  intro D
  have h1 := one_universe (P := empProto) 10 50 (by norm_num) (⟨[("a", 1)], by decide⟩ : KDict String)
  set x1 : KDict String := ⟨[("a", 1)], by decide⟩ with hx1
  set x2 : KDict String := ⟨[("a", 2), ("b", 0)], by decide⟩ with hx2
  have hDs : D.states = [(0, ((Universe.fresh empProto x1.keys).update x1).update x2), (1, (Universe.fresh empProto x2.keys).update x2)] := by
    show (((DynU.new empProto 10 50).learnMany [x1]).update x2).states = _
    have hsv : ((DynU.new empProto 10 50).learnMany [x1]).survivors x2 = [(0, ((Universe.fresh empProto x1.keys).update x1).update x2)] := by
      unfold survivors
      rw [h1]
      have wu : ((Universe.fresh empProto x1.keys).update x1).within x2.keys = true := (Universe.within_iff _ _).2 (by
        show ∀ k ∈ x1.keys, k ∈ x2.keys
        simp [hx1, hx2, KDict.keys])
      simp only [List.map_cons, List.map_nil, touch, wu, if_true]
      rfl
    obtain ⟨-, -, -, (⟨⟨m, hm, hss⟩, -, -⟩ | ⟨-, -, (⟨hl, -⟩ | ⟨-, e⟩)⟩)⟩ := update_cases ((DynU.new empProto 10 50).learnMany [x1]) x2
    · exfalso
      rw [hsv, List.mem_singleton] at hm
      subst hm
      have := (hss "b").2 (by simp [hx2, KDict.keys])
      change "b" ∈ x1.keys at this
      simp [hx1, KDict.keys] at this
    · exfalso
      rw [hsv] at hl
      change (10 : ℤ) < ((0 + 1 + 1 : ℕ) : ℤ) at hl
      omega
    · rw [e, hsv]; rfl
  have hbad : (D.tryUpdate demoNa).2 = .error .valueError := (C111_dyn_raises_iff D demoNa).1.2 ⟨("b", none), by simp [demoNa], rfl⟩
  have htorn := (C111_dyn_torn D demoNa [(0, ((Universe.fresh empProto x1.keys).update x1).update x2)] [] (1, (Universe.fresh empProto x2.keys).update x2)
    hDs (by show ∀ k ∈ x2.keys, k ∈ demoNa.keys; simp [hx2, KDict.keys, demoNa, RawDict.keys])
    ⟨"b", by show "b" ∈ x2.keys; simp [hx2, KDict.keys], rfl⟩ (by
      intro nu hn
      rw [List.mem_singleton] at hn
      subst hn
      intro _
      show ∀ k ∈ x1.keys, _
      simp [hx1, KDict.keys, demoNa, RawDict.get?, List.lookup])).2
  rw [List.map_singleton, if_pos (by show ∀ k ∈ x1.keys, k ∈ demoNa.keys; simp [hx1, KDict.keys, demoNa, RawDict.keys])] at htorn
  have hms : (D.tryUpdate demoNa).1.maxStaleness = 50 := (tryUpdate_bad D (fun h => h ("b", none) (by simp [demoNa]) rfl)).2.2.2.1
  have hA := two_update htorn rfl rfl hms demoFixed rfl
  have hB := two_update hDs rfl rfl rfl demoFixed rfl
  have hr1 : ((Universe.fresh empProto x1.keys).row x1 : Fin 1 → ℝ) = fun _ => 1 := by
    funext i; change Fin 1 at i; fin_cases i; rfl
  have hr2 : ((Universe.fresh empProto x1.keys).row x2 : Fin 1 → ℝ) = fun _ => 2 := by
    funext i; change Fin 1 at i; fin_cases i; rfl
  have hr3 : ((Universe.fresh empProto x1.keys).row demoNa.numbers : Fin 1 → ℝ) = fun _ => 3 := by
    funext i; change Fin 1 at i; fin_cases i; rfl
  have hr4 : ((Universe.fresh empProto x1.keys).row demoFixed : Fin 1 → ℝ) = fun _ => 3 := by
    funext i; change Fin 1 at i; fin_cases i; rfl
  refine ⟨hbad, ?_, ?_⟩
  · have hcov := (empProto_cov (d := 1) [fun _ => 1, fun _ => 2, fun _ => 3, fun _ => 3] (by simp)).1
    refine two_cov L hA (by show 2 < 4; norm_num) (by show "a" ∈ x1.keys; simp [hx1, KDict.keys])
      (covOf [fun _ => 1, fun _ => 2, fun _ => 3, fun _ => 3]) ?_ _ (by norm_num) ?_
    · have hrows : [((Universe.fresh empProto x1.keys).row x1 : Fin 1 → ℝ), (Universe.fresh empProto x1.keys).row x2,
          (Universe.fresh empProto x1.keys).row demoNa.numbers, (Universe.fresh empProto x1.keys).row demoFixed] =
          [fun _ => 1, fun _ => 2, fun _ => 3, fun _ => 3] := by
        rw [hr1, hr2, hr3, hr4]
      exact (congrArg (fun l => (wrapped empProto 1 l).covariance) hrows).trans hcov
    · intro i j
      change Fin 1 at i j
      fin_cases i; fin_cases j
      simp [covOf, meanOf]; norm_num
      rfl
  · have hcov := (empProto_cov (d := 1) [fun _ => 1, fun _ => 2, fun _ => 3] (by simp)).1
    refine two_cov L hB (by show 2 < 3; norm_num) (by show "a" ∈ x1.keys; simp [hx1, KDict.keys])
      (covOf [fun _ => 1, fun _ => 2, fun _ => 3]) ?_ _ (by norm_num) ?_
    · have hrows : [((Universe.fresh empProto x1.keys).row x1 : Fin 1 → ℝ), (Universe.fresh empProto x1.keys).row x2,
          (Universe.fresh empProto x1.keys).row demoFixed] = [fun _ => 1, fun _ => 2, fun _ => 3] := by
        rw [hr1, hr2, hr4]
      exact (congrArg (fun l => (wrapped empProto 1 l).covariance) hrows).trans hcov
    · intro i j
      change Fin 1 at i j
      fin_cases i; fin_cases j
      simp [covOf, meanOf]; norm_num
      rfl

end Precise
