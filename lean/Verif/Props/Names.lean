import Verif.Spec.Names
import Verif.Props.DynUniverse
import Verif.Props.Relabel
import Verif.Props.Translate

/-!
# C112: names are only names
-/

set_option linter.all false

open Matrix

namespace Precise

open Spec

variable {Key Key' : Type} [DecidableEq Key] [DecidableEq Key'] {P : Proto}

namespace Names

/-- Which column permutations are allowed. -/
abbrev Perms := ∀ (d d' : ℕ), (Fin d ≃ Fin d') → Prop

/-- The wrapped estimator respects them. -/
def Respects (P : Proto) (E : Perms) : Prop := ∀ d d' (e : Fin d ≃ Fin d'), E d d' e →
  Transports (P.cls d) (P.cls d') (P.par d) (P.par d') (relabelVec e) (relabelVec e) (relabelMat e)

/-- Two lists of names correspond by an allowed permutation. -/
def Lists (E : Perms) (ρ : Key → Key') (ks : List Key) (ks' : List Key') (e : Fin ks.length ≃ Fin ks'.length) : Prop :=
  E _ _ e ∧ ∀ i, ks'.get (e i) = ρ (ks.get i)

/-- Two observations correspond. -/
structure Match (E : Perms) (ρ : Key → Key') (x : KDict Key) (x' : KDict Key') : Prop where
  value : ∀ k, x'.get? (ρ k) = x.get? k
  lists : ∃ e, Lists E ρ x.keys x'.keys e

/-- Two universes correspond. -/
structure UMatch (E : Perms) (ρ : Key → Key') (u : Universe P Key) (u' : Universe P Key') : Prop where
  nodup : u.keys.Nodup
  nodup' : u'.keys.Nodup
  stale : u'.staleness = u.staleness
  long : u'.longevity = u.longevity
  est : ∃ e, Lists E ρ u.keys u'.keys e ∧ ∃ rows, u.est = wrapped P _ rows ∧ u'.est = wrapped P _ (rows.map (relabelVec e))

theorem Lists.mem {E : Perms} {ρ : Key → Key'} {ks : List Key} {ks' : List Key'} {e : Fin ks.length ≃ Fin ks'.length} (h : Lists E ρ ks ks' e)
    (k' : Key') : k' ∈ ks' ↔ ∃ k ∈ ks, ρ k = k' := by
  constructor
  · intro hk
    obtain ⟨i', rfl⟩ := List.get_of_mem hk
    refine ⟨ks.get (e.symm i'), List.get_mem _ _, ?_⟩
    rw [← h.2, Equiv.apply_symm_apply]
  · rintro ⟨k, hk, rfl⟩
    obtain ⟨i, rfl⟩ := List.get_of_mem hk
    rw [← h.2]; exact List.get_mem _ _

theorem Lists.idxOf {E : Perms} {ρ : Key → Key'} {ks : List Key} {ks' : List Key'} {e : Fin ks.length ≃ Fin ks'.length} (h : Lists E ρ ks ks' e)
    (hnd : ks.Nodup) (hnd' : ks'.Nodup) (i : Fin ks.length) : ks'.idxOf (ρ (ks.get i)) = (e i).1 := by
  rw [← h.2]
  exact DynU.idxOf_get hnd' (e i)

theorem mem_keys_iff (x : KDict Key) (k : Key) : k ∈ x.keys ↔ (x.get? k).isSome = true := by
  rw [Option.isSome_iff_exists]
  simp only [KDict.get?_eq_some, KDict.keys, List.mem_map, Prod.exists, exists_and_right, exists_eq_right]

theorem Match.mem {E : Perms} {ρ : Key → Key'} {x : KDict Key} {x' : KDict Key'} (h : Match E ρ x x') (k : Key) : ρ k ∈ x'.keys ↔ k ∈ x.keys := by
  rw [mem_keys_iff, mem_keys_iff, h.value]

variable {E : Perms} {ρ : Key → Key'}

theorem UMatch.within {u : Universe P Key} {u' : Universe P Key'} (h : UMatch E ρ u u') {x : KDict Key} {x' : KDict Key'} (hx : Match E ρ x x') :
    u'.within x'.keys = u.within x.keys := by
  obtain ⟨e, he, -⟩ := h.est
  rw [Bool.eq_iff_iff, Universe.within_iff, Universe.within_iff]
  constructor
  · intro hw k hk
    exact (hx.mem k).1 (hw _ ((he.mem _).2 ⟨k, hk, rfl⟩))
  · intro hw k' hk'
    obtain ⟨k, hk, rfl⟩ := (he.mem _).1 hk'
    exact (hx.mem k).2 (hw k hk)

theorem UMatch.sameKeys (hρ : Function.Injective ρ) {u : Universe P Key} {u' : Universe P Key'} (h : UMatch E ρ u u') {x : KDict Key} {x' : KDict Key'} (hx : Match E ρ x x') :
    u'.sameKeys x'.keys = u.sameKeys x.keys := by
  obtain ⟨e, he, -⟩ := h.est
  obtain ⟨f, hf⟩ := hx.lists
  rw [Bool.eq_iff_iff, Universe.sameKeys_iff, Universe.sameKeys_iff]
  have hu : ∀ k, ρ k ∈ u'.keys ↔ k ∈ u.keys := by
    intro k
    rw [he.mem]
    exact ⟨fun ⟨k2, h1, h2⟩ => hρ h2 ▸ h1, fun h => ⟨k, h, rfl⟩⟩
  constructor
  · intro hs k
    rw [← hu, ← hx.mem]; exact hs (ρ k)
  · intro hs k'
    constructor
    · intro hk'
      obtain ⟨k, hk, rfl⟩ := (he.mem _).1 hk'
      exact (hx.mem k).2 ((hs k).1 hk)
    · intro hk'
      obtain ⟨k, hk, rfl⟩ := (hf.mem _).1 hk'
      exact (hu k).2 ((hs k).2 hk)

theorem row_match {ks : List Key} {ks' : List Key'} {e : Fin ks.length ≃ Fin ks'.length} (he : Lists E ρ ks ks' e)
    {x : KDict Key} {x' : KDict Key'} (hx : Match E ρ x x') : rowOf ks' x' = relabelVec e (rowOf ks x) := by
  funext i'
  unfold rowOf relabelVec
  have : ks'.get i' = ρ (ks.get (e.symm i')) := by rw [← he.2, Equiv.apply_symm_apply]
  rw [this, hx.value]

theorem UMatch.update {u : Universe P Key} {u' : Universe P Key'} (h : UMatch E ρ u u') {x : KDict Key} {x' : KDict Key'} (hx : Match E ρ x x') :
    UMatch E ρ (u.update x) (u'.update x') := by
  obtain ⟨e, he, rows, h1, h2⟩ := h.est
  refine ⟨h.nodup, h.nodup', rfl, ?_, e, he, rows ++ [rowOf u.keys x], ?_, ?_⟩
  · show u'.longevity + 1 = u.longevity + 1
    rw [h.long]
  · show (u.est.partialFit (.row (rowOf u.keys x))).1 = wrapped P u.keys.length (rows ++ [rowOf u.keys x])
    rw [wrapped_snoc, h1]
  · show (u'.est.partialFit (.row (rowOf u'.keys x'))).1 = wrapped P u'.keys.length ((rows ++ [rowOf u.keys x]).map (relabelVec e))
    rw [List.map_append, List.map_singleton, wrapped_snoc, h2, row_match he hx]

/-- Two entries of the table correspond. -/
def NMatch (E : Perms) (ρ : Key → Key') (nu : ℕ × Universe P Key) (nu' : ℕ × Universe P Key') : Prop := nu'.1 = nu.1 ∧ UMatch E ρ nu.2 nu'.2

open DynU

theorem NMatch.touch {nu : ℕ × Universe P Key} {nu' : ℕ × Universe P Key'} (h : NMatch E ρ nu nu') {x : KDict Key} {x' : KDict Key'} (hx : Match E ρ x x') :
    NMatch E ρ (touch x nu) (touch x' nu') := by
  unfold DynU.touch
  rw [h.2.within hx]
  split
  · exact ⟨h.1, h.2.update hx⟩
  · refine ⟨h.1, h.2.nodup, h.2.nodup', ?_, h.2.long, h.2.est⟩
    show nu'.2.staleness + 1 = nu.2.staleness + 1
    rw [h.2.stale]

theorem forall₂_filter {α β : Type} {R : α → β → Prop} {p : α → Bool} {q : β → Bool} (hpq : ∀ a b, R a b → q b = p a) :
    ∀ {l : List α} {l' : List β}, List.Forall₂ R l l' → List.Forall₂ R (l.filter p) (l'.filter q) := by
  intro l l' h
  induction h with
  | nil => exact .nil
  | @cons a b l l' hab _ ih =>
    rw [List.filter_cons, List.filter_cons, hpq a b hab]
    split
    · exact .cons hab ih
    · exact ih

theorem forall₂_any {α β : Type} {R : α → β → Prop} {p : α → Bool} {q : β → Bool} (hpq : ∀ a b, R a b → q b = p a) :
    ∀ {l : List α} {l' : List β}, List.Forall₂ R l l' → l'.any q = l.any p := by
  intro l l' h
  induction h with
  | nil => rfl
  | @cons a b l l' hab _ ih => rw [List.any_cons, List.any_cons, hpq a b hab, ih]

theorem forall₂_firstMin {α β : Type} {R : α → β → Prop} {lt : α → α → Bool} {lt' : β → β → Bool}
    (hlt : ∀ a b c d, R a b → R c d → lt' b d = lt a c) {l : List α} {l' : List β} (h : List.Forall₂ R l l') :
    Option.Rel R (firstMin lt l) (firstMin lt' l') := by
  cases h with
  | nil => exact .none
  | @cons a b l l' hab hl =>
    refine .some ?_
    induction hl generalizing a b with
    | nil => exact hab
    | @cons c d l l' hcd _ ih =>
      rw [List.foldl_cons, List.foldl_cons]
      refine ih ?_
      rw [hlt c d a b hcd hab]
      split
      · exact hcd
      · exact hab

/-- Two adapters correspond. -/
structure DMatch (E : Perms) (ρ : Key → Key') (D : DynU P Key) (D' : DynU P Key') : Prop where
  mu : D'.maxUniverses = D.maxUniverses
  ms : D'.maxStaleness = D.maxStaleness
  counter : D'.counter = D.counter
  states : List.Forall₂ (NMatch E ρ) D.states D'.states

theorem DMatch.update (hρ : Function.Injective ρ) {D : DynU P Key} {D' : DynU P Key'} (h : DMatch E ρ D D') {x : KDict Key} {x' : KDict Key'} (hx : Match E ρ x x') :
    DMatch E ρ (D.update x) (D'.update x') := by
  have hsv : List.Forall₂ (NMatch E ρ) (D.survivors x) (D'.survivors x') := by
    unfold survivors
    refine forall₂_filter ?_ ?_
    · intro a b hab
      rw [hab.2.stale, h.ms]
    · rw [List.forall₂_map_left_iff, List.forall₂_map_right_iff]
      exact h.states.imp fun a b hab => hab.touch hx
  have hany := forall₂_any (p := fun nu => nu.2.sameKeys x.keys) (q := fun nu => nu.2.sameKeys x'.keys) (fun a b hab => hab.2.sameKeys hρ hx) hsv
  have hborn : NMatch E ρ (D.counter, (Universe.fresh P x.keys).update x) (D'.counter, (Universe.fresh P x'.keys).update x') := by
    refine ⟨h.counter, UMatch.update ?_ hx⟩
    obtain ⟨e, he⟩ := hx.lists
    exact ⟨x.nodup, x'.nodup, rfl, rfl, e, he, [], rfl, rfl⟩
  have hs' := List.rel_append (R := NMatch E ρ) hsv (List.Forall₂.cons hborn .nil)
  unfold DynU.update
  simp only []
  rw [hany]
  split
  · exact ⟨h.mu, h.ms, h.counter, hsv⟩
  · refine ⟨h.mu, h.ms, by show D'.counter + 1 = D.counter + 1; rw [h.counter], ?_⟩
    simp only []
    rw [h.mu, ← hs'.length_eq]
    split
    · have hf := forall₂_firstMin (lt := evictLt) (lt' := evictLt) (fun a b c d hab hcd => by
        unfold evictLt
        rw [hab.2.stale, hab.2.long, hcd.2.stale, hcd.2.long]) hs'
      unfold evict
      generalize firstMin evictLt (D.survivors x ++ [(D.counter, (Universe.fresh P x.keys).update x)]) = a at hf ⊢
      generalize firstMin evictLt (D'.survivors x' ++ [(D'.counter, (Universe.fresh P x'.keys).update x')]) = b at hf ⊢
      cases hf with
      | none => exact hs'
      | some hvw =>
        refine forall₂_filter (fun a b hab => ?_) hs'
        rw [hab.1, hvw.1]
    · exact hs'

theorem DMatch.learn (hρ : Function.Injective ρ) {X : List (KDict Key)} {X' : List (KDict Key')} (hX : List.Forall₂ (Match E ρ) X X') :
    ∀ {D : DynU P Key} {D' : DynU P Key'}, DMatch E ρ D D' → DMatch E ρ (D.learnMany X) (D'.learnMany X') := by
  induction hX with
  | nil => intro D D' h; exact h
  | cons hx _ ih => intro D D' h; exact ih (h.update hρ hx)

theorem transports_wrapped (hE : Respects P E) {d d' : ℕ} {e : Fin d ≃ Fin d'} (he : E d d' e) (rows : List (Fin d → ℝ)) :
    (wrapped P d' (rows.map (relabelVec e))).nSamples = (wrapped P d rows).nSamples ∧
    (wrapped P d' (rows.map (relabelVec e))).location = (wrapped P d rows).location.map (relabelVec e) ∧
    (wrapped P d' (rows.map (relabelVec e))).covariance = (wrapped P d rows).covariance.map (relabelMat e) := by
  have h := hE d d' e he (feedCalls rows)
  have hc : (feedCalls rows).map (mapCall (relabelVec e)) = feedCalls (rows.map (relabelVec e)) := by
    unfold feedCalls
    rw [List.map_map, List.map_map]; rfl
  rw [hc] at h
  exact h

theorem DMatch.pairValue (hρ : Function.Injective ρ) (hE : Respects P E) {D : DynU P Key} {D' : DynU P Key'} (h : DMatch E ρ D D') (ki kj : Key) :
    D'.pairValue (ρ ki) (ρ kj) = D.pairValue ki kj := by
  have hrun : ∀ {u : Universe P Key} {u' : Universe P Key'}, UMatch E ρ u u' → ∃ e, Lists E ρ u.keys u'.keys e ∧ u'.runningCov = u.runningCov.map (relabelMat e) := by
    intro u u' hu
    obtain ⟨e, he, rows, h1, h2⟩ := hu.est
    obtain ⟨t1, -, t3⟩ := transports_wrapped hE he.1 rows
    refine ⟨e, he, ?_⟩
    unfold Universe.runningCov
    rw [h1, h2, t1, t3]
    split
    · rcases (wrapped P u.keys.length rows).covariance with e | c <;> rfl
    · rfl
  have hmem : ∀ {u : Universe P Key} {u' : Universe P Key'}, UMatch E ρ u u' → ∀ k, ρ k ∈ u'.keys ↔ k ∈ u.keys := by
    intro u u' hu k
    obtain ⟨e, he, -⟩ := hu.est
    rw [he.mem]
    exact ⟨fun ⟨k2, h1, h2⟩ => hρ h2 ▸ h1, fun h => ⟨k, h, rfl⟩⟩
  have hcand : List.Forall₂ (NMatch E ρ) (D.candidates ki kj) (D'.candidates (ρ ki) (ρ kj)) := by
    unfold candidates
    refine forall₂_filter (fun a b hab => ?_) h.states
    obtain ⟨e, -, hr⟩ := hrun hab.2
    rw [hr]
    simp only [hmem hab.2, Option.isSome_map]
  have hf := forall₂_firstMin (lt := preferLt) (lt' := preferLt) (fun a b c d hab hcd => by
    unfold preferLt
    rw [hab.2.stale, hab.2.long, hcd.2.stale, hcd.2.long]) hcand
  unfold DynU.pairValue
  generalize firstMin preferLt (D.candidates ki kj) = a at hf
  generalize firstMin preferLt (D'.candidates (ρ ki) (ρ kj)) = b at hf
  cases hf with
  | none => rfl
  | @some v w hvw =>
    simp only [Option.bind_some]
    obtain ⟨e, he, hr⟩ := hrun hvw.2
    rw [hr]
    rcases v.2.runningCov with _ | c
    · rfl
    · simp only [Option.map_some, Option.bind_some]
      by_cases hk : ki ∈ v.2.keys ∧ kj ∈ v.2.keys
      · obtain ⟨i, rfl⟩ := List.get_of_mem hk.1
        obtain ⟨j, rfl⟩ := List.get_of_mem hk.2
        rw [dif_pos ⟨List.idxOf_lt_length_iff.2 ((hmem hvw.2 _).2 hk.1), List.idxOf_lt_length_iff.2 ((hmem hvw.2 _).2 hk.2)⟩,
          dif_pos ⟨List.idxOf_lt_length_iff.2 hk.1, List.idxOf_lt_length_iff.2 hk.2⟩]
        congr 1
        have key : ∀ i : Fin v.2.keys.length, ∀ h1 h2, (⟨w.2.keys.idxOf (ρ (v.2.keys.get i)), h1⟩ : Fin w.2.keys.length) = e ⟨v.2.keys.idxOf (v.2.keys.get i), h2⟩ := by
          intro i h1 h2
          have e1 : (⟨v.2.keys.idxOf (v.2.keys.get i), h2⟩ : Fin v.2.keys.length) = i := Fin.ext (idxOf_get hvw.2.nodup i)
          rw [e1]
          exact Fin.ext (he.idxOf hvw.2.nodup hvw.2.nodup' i)
        unfold relabelMat
        simp only [Matrix.of_apply]
        rw [key i, key j, Equiv.symm_apply_apply, Equiv.symm_apply_apply]
      · rw [dif_neg, dif_neg]
        · rw [List.idxOf_lt_length_iff, List.idxOf_lt_length_iff]; exact hk
        · rw [List.idxOf_lt_length_iff, List.idxOf_lt_length_iff, hmem hvw.2, hmem hvw.2]; exact hk

theorem relabelMat_conj {d d' : ℕ} (e : Fin d ≃ Fin d') (a : Matrix (Fin d) (Fin d) ℝ) : relabelMat e a = conj (permQ e) a := (permQ_conj e a).symm

theorem npd_relabel (L : Lapack) {d d' : ℕ} (e : Fin d ≃ Fin d') (a : Matrix (Fin d) (Fin d) ℝ) :
    nearestPosDef L (relabelMat e a) = relabelMat e (nearestPosDef L a) := by
  rw [relabelMat_conj, relabelMat_conj, conj_nearestPosDef (permQ_orth e)]

theorem offDiagMean_relabel {n n' : ℕ} (e : Fin n ≃ Fin n') (M : Fin n → Fin n → Option ℝ) (M' : Fin n' → Fin n' → Option ℝ)
    (h : ∀ i j, M' (e i) (e j) = M i j) : offDiagMean M' = offDiagMean M := by
  have hk : (Finset.univ.filter fun ab : Fin n' × Fin n' => ab.1 ≠ ab.2 ∧ (M' ab.1 ab.2).isSome) =
      (Finset.univ.filter fun ab : Fin n × Fin n => ab.1 ≠ ab.2 ∧ (M ab.1 ab.2).isSome).map (e.prodCongr e).toEmbedding := by
    ext ⟨a, b⟩
    simp only [Finset.mem_filter, Finset.mem_univ, true_and, Finset.mem_map, Prod.exists]
    constructor
    · rintro ⟨h1, h2⟩
      refine ⟨e.symm a, e.symm b, ⟨fun h3 => h1 (e.symm.injective h3), ?_⟩, by simp⟩
      rw [← h, Equiv.apply_symm_apply, Equiv.apply_symm_apply]; exact h2
    · rintro ⟨i, j, ⟨h1, h2⟩, h3⟩
      simp only [Equiv.coe_toEmbedding, Equiv.prodCongr_apply, Prod.map_apply, Prod.mk.injEq] at h3
      obtain ⟨rfl, rfl⟩ := h3
      exact ⟨fun h3 => h1 (e.injective h3), by rw [h]; exact h2⟩
  unfold offDiagMean
  simp only []
  rw [hk]
  simp only [Finset.map_eq_empty, Finset.card_map, Finset.sum_map, Equiv.coe_toEmbedding, Equiv.prodCongr_apply, Prod.map_fst, Prod.map_snd, h]

/-- equal names up to renaming and order, without repetition, are matched by a permutation of the positions -/
theorem exists_perm (hρ : Function.Injective ρ) {ks : List Key} {ks' : List Key'} (hnd : ks.Nodup) (hnd' : ks'.Nodup) (h : SameNames ρ ks ks') :
    ∃ e : Fin ks.length ≃ Fin ks'.length, ∀ i, ks'.get (e i) = ρ (ks.get i) := by
  let f : { k // k ∈ ks } → { k // k ∈ ks' } := fun k => ⟨ρ k.1, (h _).2 ⟨k.1, k.2, rfl⟩⟩
  have hf : Function.Bijective f := by
    constructor
    · intro a b hab
      exact Subtype.ext (hρ (congrArg Subtype.val hab))
    · rintro ⟨k', hk'⟩
      obtain ⟨k, hk, rfl⟩ := (h _).1 hk'
      exact ⟨⟨k, hk⟩, rfl⟩
  refine ⟨(hnd.getEquiv ks).trans ((Equiv.ofBijective f hf).trans (hnd'.getEquiv ks').symm), fun i => ?_⟩
  have : ks'.get ((hnd'.getEquiv ks').symm (f (hnd.getEquiv ks i))) = ((hnd'.getEquiv ks') ((hnd'.getEquiv ks').symm (f (hnd.getEquiv ks i)))).1 := rfl
  show ks'.get ((hnd'.getEquiv ks').symm (f (hnd.getEquiv ks i))) = _
  rw [this, Equiv.apply_symm_apply]
  rfl

theorem answer_of_perm (hρ : Function.Injective ρ) {ks : List Key} {ks' : List Key'} (hnd : ks.Nodup) (hnd' : ks'.Nodup) {e : Fin ks.length ≃ Fin ks'.length}
    (he : ∀ i, ks'.get (e i) = ρ (ks.get i)) (c : Matrix (Fin ks.length) (Fin ks.length) ℝ) :
    RenamedAnswer ρ ⟨ks, c⟩ ⟨ks', relabelMat e c⟩ := by
  refine ⟨fun k' => (Lists.mem (E := fun _ _ _ => True) (e := e) ⟨trivial, he⟩ k'), fun i j i' j' hi hj => ?_⟩
  have key : ∀ (i : Fin ks.length) (i' : Fin ks'.length), ks'.get i' = ρ (ks.get i) → e.symm i' = i := by
    intro i i' hi
    rw [← he i] at hi
    rw [hnd'.get_inj_iff.1 hi, Equiv.symm_apply_apply]
  show c (e.symm i') (e.symm j') = c i j
  rw [key i i' hi, key j j' hj]

theorem DMatch.covArray (L : Lapack) (hρ : Function.Injective ρ) (hE : Respects P E) {D : DynU P Key} {D' : DynU P Key'} (h : DMatch E ρ D D')
    {ks : List Key} {ks' : List Key'} (hnd : ks.Nodup) (hnd' : ks'.Nodup) (hs : SameNames ρ ks ks') :
    ∃ m m', D.covArray L (.list ks) = .ok m ∧ D'.covArray L (.list ks') = .ok m' ∧ m.1 = ks ∧ m'.1 = ks' ∧ RenamedAnswer ρ m m' := by
  obtain ⟨e, he⟩ := exists_perm hρ hnd hnd' hs
  refine ⟨_, _, covArray_list L D hnd, covArray_list L D' hnd', rfl, rfl, ?_⟩
  have hp : ∀ i j, D'.pairValue (ks'.get (e i)) (ks'.get (e j)) = D.pairValue (ks.get i) (ks.get j) := by
    intro i j; rw [he, he, h.pairValue hρ hE]
  have hm := offDiagMean_relabel e (fun a b => D.pairValue (ks.get a) (ks.get b)) (fun a b => D'.pairValue (ks'.get a) (ks'.get b)) hp
  have hM : (Matrix.of fun a b => (D'.pairValue (ks'.get a) (ks'.get b)).getD (offDiagMean fun a b => D'.pairValue (ks'.get a) (ks'.get b))) =
      relabelMat e (Matrix.of fun a b => (D.pairValue (ks.get a) (ks.get b)).getD (offDiagMean fun a b => D.pairValue (ks.get a) (ks.get b))) := by
    ext a b
    unfold relabelMat
    simp only [Matrix.of_apply]
    rw [hm, ← hp, Equiv.apply_symm_apply, Equiv.apply_symm_apply]
  rw [hM, npd_relabel]
  exact answer_of_perm hρ hnd hnd' he _

/-! ### FixedUniverse -/

/-- Two states of a FixedUniverse correspond. -/
def SMatch (E : Perms) (ρ : Key → Key') : FixedState P Key → FixedState P Key' → Prop
  | .noKeys, .noKeys => True
  | .ready ks, .ready ks' => ks.Nodup ∧ ks'.Nodup ∧ ∃ e, Lists E ρ ks ks' e
  | .live ks est last, .live ks' est' last' => ks.Nodup ∧ ks'.Nodup ∧ ∃ e, Lists E ρ ks ks' e ∧ last' = relabelVec e last ∧
      ∃ rows, est = wrapped P _ rows ∧ est' = wrapped P _ (rows.map (relabelVec e))
  | _, _ => False

theorem updateLive_match (hE : Respects P E) (impute : String) {ks : List Key} {ks' : List Key'} (hnd : ks.Nodup) (hnd' : ks'.Nodup)
    {e : Fin ks.length ≃ Fin ks'.length} (he : Lists E ρ ks ks' e) (rows : List (Fin ks.length → ℝ)) (last : Fin ks.length → ℝ)
    {x : KDict Key} {x' : KDict Key'} (hx : ∀ k, x'.get? (ρ k) = x.get? k) :
    SMatch (P := P) E ρ (FixedU.updateLive impute ks (wrapped P _ rows) last x)
      (FixedU.updateLive impute ks' (wrapped P _ (rows.map (relabelVec e))) (relabelVec e last) x') := by
  obtain ⟨t1, t2, -⟩ := transports_wrapped hE he.1 rows
  have hk : ∀ i', ks'.get i' = ρ (ks.get (e.symm i')) := by intro i'; rw [← he.2, Equiv.apply_symm_apply]
  have hfill : FixedU.fillRow impute ks' (wrapped P _ (rows.map (relabelVec e))) (relabelVec e last) x' =
      relabelVec e (FixedU.fillRow impute ks (wrapped P _ rows) last x) := by
    funext i'
    unfold relabelVec FixedU.fillRow
    rw [hk, hx]
    rcases x.get? (ks.get (e.symm i')) with _ | v
    · simp only []
      split
      · rfl
      · split
        · have t1' := t1; have t2' := t2
          unfold relabelVec at t1' t2'
          rw [t1', t2']
          split
          · rcases (wrapped P ks.length rows).location with er | m <;> rfl
          · rfl
        · rfl
    · rfl
  refine ⟨hnd, hnd', e, he, ?_, rows ++ [FixedU.fillRow impute ks (wrapped P _ rows) last x], ?_, ?_⟩
  · funext i'
    unfold relabelVec FixedU.newLast
    rw [hk, hx]
  · rw [wrapped_snoc]
  · rw [List.map_append, List.map_singleton, wrapped_snoc, hfill]

theorem SMatch.update (hE : Respects P E) {U : FixedU P Key} {U' : FixedU P Key'} (hi : U'.impute = U.impute) (h : SMatch E ρ U.state U'.state)
    {x : KDict Key} {x' : KDict Key'} (hx : Match E ρ x x') : (U'.update x').impute = (U.update x).impute ∧ SMatch E ρ (U.update x).state (U'.update x').state := by
  refine ⟨hi, ?_⟩
  unfold FixedU.update
  simp only []
  rw [hi]
  rcases hs : U.state with _ | ks | ⟨ks, est, last⟩ <;> rcases hs' : U'.state with _ | ks' | ⟨ks', est', last'⟩ <;> rw [hs, hs'] at h <;>
    first | exact h.elim | skip
  · obtain ⟨e, he⟩ := hx.lists
    exact updateLive_match hE U.impute x.nodup x'.nodup he [] (fun _ => 0) hx.value
  · obtain ⟨h1, h2, e, he⟩ := h
    exact updateLive_match hE U.impute h1 h2 he [] (fun _ => 0) hx.value
  · obtain ⟨h1, h2, e, he, rfl, rows, rfl, rfl⟩ := h
    exact updateLive_match hE U.impute h1 h2 he rows last hx.value

theorem SMatch.learn (hE : Respects P E) {X : List (KDict Key)} {X' : List (KDict Key')} (hX : List.Forall₂ (Match E ρ) X X') :
    ∀ {U : FixedU P Key} {U' : FixedU P Key'}, U'.impute = U.impute → SMatch E ρ U.state U'.state →
      SMatch E ρ (U.learnMany X).state (U'.learnMany X').state := by
  induction hX with
  | nil => intro U U' _ h; exact h
  | cons hx _ ih => intro U U' hi h; exact ih (SMatch.update hE hi h hx).1 (SMatch.update hE hi h hx).2

theorem SMatch.all (hρ : Function.Injective ρ) (hE : Respects P E) {U : FixedU P Key} {U' : FixedU P Key'} (h : SMatch E ρ U.state U'.state) :
    BothAnswer (fun m m' => RenamedAnswer ρ m m' ∧ ∃ e, Lists E ρ m.1 m'.1 e) (U.covArray .all) (U'.covArray .all) ∧ (∀ m, U.covArray .all = .ok m → m.1.Nodup) ∧
      (∀ m, U'.covArray .all = .ok m → m.1.Nodup) := by
  unfold FixedU.covArray
  rcases hs : U.state with _ | ks | ⟨ks, est, last⟩ <;> rcases hs' : U'.state with _ | ks' | ⟨ks', est', last'⟩ <;> rw [hs, hs'] at h <;>
    first | exact h.elim | skip
  · exact ⟨rfl, fun m h => (by cases h), fun m h => (by cases h)⟩
  · exact ⟨rfl, fun m h => (by cases h), fun m h => (by cases h)⟩
  · obtain ⟨h1, h2, e, he, rfl, rows, rfl, rfl⟩ := h
    obtain ⟨-, -, t3⟩ := transports_wrapped hE he.1 rows
    simp only []
    rw [t3]
    rcases (wrapped P ks.length rows).covariance with er | c
    · exact ⟨rfl, fun m h => (by cases h), fun m h => (by cases h)⟩
    · refine ⟨⟨answer_of_perm hρ h1 h2 he.2 c, e, he⟩, fun m h => ?_, fun m h => ?_⟩
      · cases h; exact h1
      · cases h; exact h2

theorem fixed_error (U : FixedU P Key) (q : Query Key) {er : PyErr} (h : U.covArray .all = .error er) : U.covArray q = .error er := by
  unfold FixedU.covArray at h ⊢
  rcases hs : U.state with _ | ks | ⟨ks, est, last⟩ <;> rw [hs] at h
  · exact h
  · exact h
  · simp only [] at h ⊢
    rcases hc : est.covariance with er' | c <;> rw [hc] at h
    · exact h
    · cases h

theorem SMatch.list (hρ : Function.Injective ρ) (hE : Respects P E) {U : FixedU P Key} {U' : FixedU P Key'} (h : SMatch E ρ U.state U'.state)
    (q : List Key) (q' : List Key') (hq : SameNames ρ q q') : BothAnswer (RenamedAnswer ρ) (U.covArray (.list q)) (U'.covArray (.list q')) := by
  obtain ⟨ha, hn, hn'⟩ := h.all hρ hE
  rcases hm : U.covArray .all with er | m <;> rcases hm' : U'.covArray .all with er' | m' <;> rw [hm, hm'] at ha
  · cases (ha : er = er')
    rw [fixed_error U (.list q) hm, fixed_error U' (.list q') hm']; rfl
  · exact ha.elim
  · exact ha.elim
  · replace ha : RenamedAnswer ρ m m' := ha.1
    have hmem : ∀ k, ρ k ∈ m'.1 ↔ k ∈ m.1 := by
      intro k
      rw [ha.1]
      exact ⟨fun ⟨k2, h1, h2⟩ => hρ h2 ▸ h1, fun h => ⟨k, h, rfl⟩⟩
    obtain ⟨s1, s2⟩ := C43_subquery U m hm (hn m hm) q
    obtain ⟨s1', s2'⟩ := C43_subquery U' m' hm' (hn' m' hm') q'
    by_cases hall : ∀ k ∈ q, k ∈ m.1
    · obtain ⟨r, hr, hr1, hr2⟩ := s1 hall
      obtain ⟨r', hr', hr1', hr2'⟩ := s1' (fun k' hk' => by
        obtain ⟨k, hk, rfl⟩ := (hq k').1 hk'
        exact (hmem k).2 (hall k hk))
      rw [hr, hr']
      refine ⟨by rw [hr1, hr1']; exact hq, fun i j i' j' hi hj => ?_⟩
      have pos : ∀ i : Fin r.1.length, ∃ a : Fin m.1.length, m.1.get a = r.1.get i := by
        intro i
        have h0 : ∀ k ∈ r.1, k ∈ q := by rw [hr1]; exact fun _ h => h
        exact List.get_of_mem (hall _ (h0 _ (List.get_mem _ _)))
      obtain ⟨a, hai⟩ := pos i
      obtain ⟨b, hbj⟩ := pos j
      obtain ⟨a', ha'⟩ := List.get_of_mem ((hmem _).2 (List.get_mem m.1 a))
      obtain ⟨b', hb'⟩ := List.get_of_mem ((hmem _).2 (List.get_mem m.1 b))
      rw [hr2 a b i j hai hbj, hr2' a' b' i' j' (by rw [ha', hai, hi]) (by rw [hb', hbj, hj])]
      exact ha.2 a b a' b' ha' hb'
    · push Not at hall
      obtain ⟨k, hk, hk2⟩ := hall
      rw [s2 ⟨k, hk, hk2⟩, s2' ⟨ρ k, (hq _).2 ⟨k, hk, rfl⟩, fun h3 => hk2 ((hmem k).1 h3)⟩]
      rfl

/-! ### Where the two streams come from -/

/-- every permutation of the columns -/
def anyPerm : Perms := fun _ _ _ => True

/-- no permutation: positions stay -/
def inPlace : Perms := fun _ _ e => ∀ i, (e i).1 = i.1

theorem respects_any (h : OrderFree P) : Respects P anyPerm := fun d d' e _ => h d d' e

theorem respects_inPlace (P : Proto) : Respects P inPlace := by
  intro d d' e he
  have hd : d = d' := by simpa using Fintype.card_congr e
  subst hd
  have h0 : e = Equiv.refl _ := Equiv.ext fun i => Fin.ext (he i)
  subst h0
  have h1 : relabelVec (Equiv.refl (Fin d)) = id := rfl
  have h2 : relabelMat (Equiv.refl (Fin d)) = id := rfl
  rw [h1, h2]
  intro calls
  have h3 : calls.map (mapCall (id : (Fin d → ℝ) → Fin d → ℝ)) = calls := by
    conv_rhs => rw [← List.map_id calls]
    refine List.map_congr_left fun c _ => ?_
    cases c with
    | fit a => cases a <;> simp [mapCall]
    | partialFit a => cases a <;> simp [mapCall]
  rw [h3]
  refine ⟨rfl, ?_, ?_⟩
  · rcases ((Obj.new (P.cls d) (P.par d)).run calls).location with _ | _ <;> rfl
  · rcases ((Obj.new (P.cls d) (P.par d)).run calls).covariance with _ | _ <;> rfl

theorem match_any (hρ : Function.Injective ρ) {x : KDict Key} {x' : KDict Key'} (h : Renamed ρ x x') : Match anyPerm ρ x x' := by
  refine ⟨h.value, ?_⟩
  obtain ⟨e, he⟩ := exists_perm (ks := x.keys) (ks' := x'.keys) hρ x.nodup x'.nodup (fun k' => by
    constructor
    · intro hk'
      obtain ⟨k, rfl⟩ := h.names k' hk'
      exact ⟨k, by rw [mem_keys_iff] at hk' ⊢; rwa [h.value] at hk', rfl⟩
    · rintro ⟨k, hk, rfl⟩
      rw [mem_keys_iff] at hk ⊢; rwa [h.value])
  exact ⟨e, trivial, he⟩

theorem match_inPlace (hρ : Function.Injective ρ) {x : KDict Key} {x' : KDict Key'} (h : RenamedInOrder ρ x x') : Match inPlace ρ x x' := by
  have hk : x'.keys = x.keys.map ρ := by
    unfold KDict.keys
    rw [h, List.map_map, List.map_map]; rfl
  constructor
  · intro k
    unfold KDict.get?
    rw [h]
    induction x.items with
    | nil => rfl
    | cons a l ih =>
      obtain ⟨a, v⟩ := a
      rw [List.map_cons, List.lookup_cons, List.lookup_cons]
      have : (ρ k == ρ a) = (k == a) := by
        rw [Bool.eq_iff_iff, beq_iff_eq, beq_iff_eq]; exact hρ.eq_iff
      simp only [this, ih]
  · have hl : x.keys.length = x'.keys.length := by rw [hk, List.length_map]
    refine ⟨finCongr hl, fun i => rfl, fun i => ?_⟩
    simp only [List.get_eq_getElem, finCongr_apply, Fin.val_cast]
    simp only [hk, List.getElem_map]

theorem new_match (E : Perms) (ρ : Key → Key') (mu ms : ℤ) : DMatch E ρ (DynU.new P mu ms : DynU P Key) (DynU.new P mu ms : DynU P Key') :=
  ⟨rfl, rfl, rfl, .nil⟩

theorem new_fixed_match (hρ : Function.Injective ρ) {keys : Option (List Key)} {keys' : Option (List Key')} (h : RenamedKeys ρ keys keys') (impute : String) :
    SMatch anyPerm ρ (FixedU.new P keys impute).state (FixedU.new P keys' impute).state := by
  cases keys <;> cases keys'
  · trivial
  · exact h.elim
  · exact h.elim
  · obtain ⟨h1, h2, h3⟩ := h
    obtain ⟨e, he⟩ := exists_perm hρ h1 h2 h3
    exact ⟨h1, h2, e, trivial, he⟩

theorem lists_map (hρ : Function.Injective ρ) (ks : List Key) : ∃ e, Lists inPlace ρ ks (ks.map ρ) e :=
  ⟨finCongr (by rw [List.length_map]), fun i => rfl, fun i => by simp⟩

theorem lists_inPlace {ks : List Key} {ks' : List Key'} {e : Fin ks.length ≃ Fin ks'.length} (h : Lists inPlace ρ ks ks' e) : ks' = ks.map ρ := by
  have hl : ks.length = ks'.length := by simpa using Fintype.card_congr e
  refine List.ext_getElem (by rw [List.length_map]; exact hl.symm) fun n h1 h2 => ?_
  have h3 : n < ks.length := by rw [hl]; exact h1
  have := h.2 ⟨n, h3⟩
  have h4 : e ⟨n, h3⟩ = ⟨n, h1⟩ := Fin.ext (h.1 ⟨n, h3⟩)
  rw [h4] at this
  rw [List.getElem_map]
  exact this

theorem new_fixed_inPlace (hρ : Function.Injective ρ) (keys : Option (List Key)) (hnd : ∀ ks, keys = some ks → ks.Nodup) (impute : String) :
    SMatch inPlace ρ (FixedU.new P keys impute).state (FixedU.new P (keys.map (List.map ρ)) impute).state := by
  cases keys with
  | none => trivial
  | some ks => exact ⟨hnd ks rfl, (hnd ks rfl).map hρ, lists_map hρ ks⟩

theorem dyn_all (L : Lapack) {mu ms : ℤ} {X : List (KDict Key)} {X' : List (KDict Key')} (hρ : Function.Injective ρ) (hE : Respects P E)
    (hX : List.Forall₂ (Match E ρ) X X') :
    BothAnswer (RenamedAnswer ρ) (((DynU.new P mu ms).learnMany X).covArray L .all) (((DynU.new P mu ms).learnMany X').covArray L .all) := by
  have hD := DMatch.learn hρ hX (new_match (P := P) E ρ mu ms)
  rcases List.eq_nil_or_concat X with rfl | ⟨Y, x, rfl⟩
  · cases hX; rfl
  · obtain ⟨Y', x', rfl, hx⟩ : ∃ Y' x', X' = Y' ++ [x'] ∧ Match E ρ x x' := by
      rcases List.eq_nil_or_concat X' with rfl | ⟨Y', x', rfl⟩
      · have := hX.length_eq; simp at this
      · refine ⟨Y', x', List.concat_eq_append, ?_⟩
        have h1 := List.forall₂_reverse_iff.2 hX
        rw [List.concat_eq_append, List.concat_eq_append, List.reverse_append, List.reverse_append] at h1
        exact (List.forall₂_cons.1 h1).1
    rw [List.concat_eq_append] at hD ⊢
    have hax : ∀ {K : Type} [DecidableEq K] (Z : List (KDict K)) (z : KDict K), ((DynU.new P mu ms).learnMany (Z ++ [z])).covArray L .all =
        ((DynU.new P mu ms).learnMany (Z ++ [z])).covArray L (.list z.keys) := by
      intro K _ Z z
      have : ((DynU.new P mu ms).learnMany (Z ++ [z])).x = some z := by
        rw [learnMany_snoc]; unfold DynU.update; simp only []; split <;> rfl
      unfold DynU.covArray resolveKeys
      rw [this]
    rw [hax, hax]
    obtain ⟨f, hf⟩ := hx.lists
    obtain ⟨m, m', h1, h2, -, -, h3⟩ := hD.covArray L hρ hE (ks := x.keys) (ks' := x'.keys) x.nodup x'.nodup (fun k' => hf.mem k')
    rw [h1, h2]
    exact h3

end Names

open Names

/-! ## C112 -/

/-- C112: FixedUniverse around an estimator that treats its columns alike: the names carry no meaning and neither does their order.
Rename every key by an injective `ρ` (in the constructor's `keys`, in every observation, in the query), and write the
items of the observations, the `keys` and the query in any order: the two adapters raise the same errors or report the same numbers under
corresponding pairs of names. -/
theorem C112_fixed (hP : OrderFree P) {ρ : Key → Key'} (hρ : Function.Injective ρ) (impute : String)
    {keys : Option (List Key)} {keys' : Option (List Key')} (hk : RenamedKeys ρ keys keys')
    {X : List (KDict Key)} {X' : List (KDict Key')} (hX : List.Forall₂ (Renamed ρ) X X') :
    let U := (FixedU.new P keys impute).learnMany X
    let U' := (FixedU.new P keys' impute).learnMany X'
    BothAnswer (RenamedAnswer ρ) (U.covArray .all) (U'.covArray .all) ∧
    ∀ q q', SameNames ρ q q' → BothAnswer (RenamedAnswer ρ) (U.covArray (.list q)) (U'.covArray (.list q')) := by
  intro U U'
  have hE := respects_any hP
  have h := SMatch.learn hE (hX.imp fun _ _ h => match_any hρ h) rfl (new_fixed_match (P := P) hρ hk impute)
  refine ⟨?_, fun q q' hq => h.list hρ hE q q' hq⟩
  have ha := (h.all hρ hE).1
  show BothAnswer (RenamedAnswer ρ) (U.covArray .all) (U'.covArray .all)
  change BothAnswer _ (U.covArray .all) (U'.covArray .all) at ha
  rcases hm : U.covArray .all with er | m <;> rcases hm' : U'.covArray .all with er' | m' <;> rw [hm, hm'] at ha
  · exact ha
  · exact ha
  · exact ha
  · exact ha.1

/-- C112: FixedUniverse around any estimator whatever: renaming alone, items and `keys` left in their order, changes nothing but the labels. -/
theorem C112_fixed_in_order {ρ : Key → Key'} (hρ : Function.Injective ρ) (impute : String)
    (keys : Option (List Key)) (hnd : ∀ ks, keys = some ks → ks.Nodup)
    {X : List (KDict Key)} {X' : List (KDict Key')} (hX : List.Forall₂ (RenamedInOrder ρ) X X') :
    let U := (FixedU.new P keys impute).learnMany X
    let U' := (FixedU.new P (keys.map (List.map ρ)) impute).learnMany X'
    BothAnswer (fun m m' => RenamedAnswer ρ m m' ∧ m'.1 = m.1.map ρ) (U.covArray .all) (U'.covArray .all) ∧
    ∀ q q', SameNames ρ q q' → BothAnswer (RenamedAnswer ρ) (U.covArray (.list q)) (U'.covArray (.list q')) := by
  intro U U'
  have hE := respects_inPlace P
  have h := SMatch.learn hE (hX.imp fun _ _ h => match_inPlace hρ h) rfl (new_fixed_inPlace (P := P) hρ keys hnd impute)
  refine ⟨?_, fun q q' hq => h.list hρ hE q q' hq⟩
  have ha := (h.all hρ hE).1
  change BothAnswer _ (U.covArray .all) (U'.covArray .all) at ha
  rcases hm : U.covArray .all with er | m <;> rcases hm' : U'.covArray .all with er' | m' <;> rw [hm, hm'] at ha
  · exact ha
  · exact ha
  · exact ha
  · obtain ⟨h1, e, he⟩ := ha
    exact ⟨h1, lists_inPlace he⟩

/-- C112: DynamicUniverse around an estimator that treats its columns alike: rename every key by an injective `ρ` and write the items of every
observation and of the query in any order; every query of distinct names, known or unknown, gets the same numbers under corresponding pairs of
names, and so does `cov_array()`. -/
theorem C112_dyn (L : Lapack) (hP : OrderFree P) {ρ : Key → Key'} (hρ : Function.Injective ρ) (mu ms : ℤ)
    {X : List (KDict Key)} {X' : List (KDict Key')} (hX : List.Forall₂ (Renamed ρ) X X') :
    let D := (DynU.new P mu ms).learnMany X
    let D' := (DynU.new P mu ms).learnMany X'
    BothAnswer (RenamedAnswer ρ) (D.covArray L .all) (D'.covArray L .all) ∧
    ∀ q q', q.Nodup → q'.Nodup → SameNames ρ q q' →
      ∃ m m', D.covArray L (.list q) = .ok m ∧ D'.covArray L (.list q') = .ok m' ∧ m.1 = q ∧ m'.1 = q' ∧ RenamedAnswer ρ m m' := by
  intro D D'
  have hM : List.Forall₂ (Match anyPerm ρ) X X' := hX.imp fun _ _ h => match_any hρ h
  exact ⟨dyn_all L hρ (respects_any hP) hM, fun q q' h1 h2 h3 =>
    (DMatch.learn hρ hM (new_match (P := P) anyPerm ρ mu ms)).covArray L hρ (respects_any hP) h1 h2 h3⟩

/-- C112: DynamicUniverse around any estimator whatever: renaming alone, items left in their order; the query may still be permuted. -/
theorem C112_dyn_in_order (L : Lapack) {ρ : Key → Key'} (hρ : Function.Injective ρ) (mu ms : ℤ)
    {X : List (KDict Key)} {X' : List (KDict Key')} (hX : List.Forall₂ (RenamedInOrder ρ) X X') :
    let D := (DynU.new P mu ms).learnMany X
    let D' := (DynU.new P mu ms).learnMany X'
    BothAnswer (RenamedAnswer ρ) (D.covArray L .all) (D'.covArray L .all) ∧
    ∀ q q', q.Nodup → q'.Nodup → SameNames ρ q q' →
      ∃ m m', D.covArray L (.list q) = .ok m ∧ D'.covArray L (.list q') = .ok m' ∧ m.1 = q ∧ m'.1 = q' ∧ RenamedAnswer ρ m m' := by
  intro D D'
  have hM : List.Forall₂ (Match inPlace ρ) X X' := hX.imp fun _ _ h => match_inPlace hρ h
  exact ⟨dyn_all L hρ (respects_inPlace P) hM, fun q q' h1 h2 h3 =>
    (DMatch.learn hρ hM (new_match (P := P) inPlace ρ mu ms)).covArray L hρ (respects_inPlace P) h1 h2 h3⟩

/-- C112: without renaming: the order of the items inside the observations, the first one included, never shows in what a DynamicUniverse
around such an estimator answers. -/
theorem C112_dyn_item_order (L : Lapack) (hP : OrderFree P) (mu ms : ℤ) {X X' : List (KDict Key)}
    (hX : List.Forall₂ (fun x x' => x.items.Perm x'.items) X X') (q : List Key) (hq : q.Nodup) :
    ((DynU.new P mu ms).learnMany X).covArray L (.list q) = ((DynU.new P mu ms).learnMany X').covArray L (.list q) := by
  have h1 : List.Forall₂ (Renamed (id : Key → Key)) X X' := hX.imp fun x x' h => ⟨fun k => (KDict.get?_perm h k).symm, fun k _ => ⟨k, rfl⟩⟩
  obtain ⟨m, m', e1, e2, l1, l2, h3⟩ := (C112_dyn L hP Function.injective_id mu ms h1).2 q q hq hq (fun k => ⟨fun h => ⟨k, h, rfl⟩, fun ⟨_, h, e⟩ => e ▸ h⟩)
  rw [e1, e2]
  congr 1
  obtain ⟨ks, c⟩ := m
  obtain ⟨ks', c'⟩ := m'
  cases l1; cases l2
  congr 1
  ext i j
  exact (h3.2 i j i j rfl rfl).symm

/-- C112: the wrapped estimators that treat their columns alike, at every setting: every class but those that cut the columns into
consecutive blocks. -/
theorem C112_order_free (L : Lapack) (b : Bool) (r : RParam ℝ) (h : HuberParam) (a : AdaParam) (dp : DCCParam) (sp : ShrunkParam) (fp : FactorParam) :
    OrderFree ⟨fun d => empiricalCls (Fin d) ℝ, fun _ => b⟩ ∧ OrderFree ⟨fun d => ewaCls (Fin d) ℝ, fun _ => r⟩ ∧
    OrderFree ⟨fun d => ledoitWolfCls (Fin d) ℝ, fun _ => r⟩ ∧ OrderFree ⟨fun d => oasCls (Fin d) ℝ, fun _ => r⟩ ∧
    OrderFree ⟨fun d => huberCls L (Fin d), fun _ => h⟩ ∧ OrderFree ⟨fun d => adaptiveCls L (Fin d), fun _ => a⟩ ∧
    OrderFree ⟨fun d => geodesicCls L (Fin d), fun _ => r⟩ ∧ OrderFree ⟨fun d => partialMomentsCls L (Fin d), fun _ => r⟩ ∧
    OrderFree ⟨fun d => diagonalCls (Fin d) ℝ, fun _ => r⟩ ∧ OrderFree ⟨fun d => dccCls (Fin d), fun _ => dp⟩ ∧
    OrderFree ⟨fun d => shrunkCls (Fin d), fun _ => sp⟩ ∧ OrderFree ⟨fun d => tylerCls L (Fin d), fun _ => r⟩ ∧
    OrderFree ⟨fun d => factorCls (Fin d), fun _ => fp⟩ :=
  ⟨fun d d' e => C66_empirical e b, fun d d' e => C66_ewa e r, fun d d' e => C66_ledoitWolf e r, fun d d' e => C66_oas e r,
    fun d d' e => C66_huber e L h, fun d d' e => C66_adaptive e L a, fun d d' e => C66_geodesic e L r, fun d d' e => C66_partialMoments e L r,
    fun d d' e => C66_diagonal e r, fun d d' e => C66_dcc e dp, fun d d' e => C66_shrunk e sp, fun d d' e => C66_tyler e L r,
    fun d d' e => C66_factor e fp⟩

/-- two blocks, as the wrapped estimator -/
noncomputable def blockProto (L : Lapack) : Proto := ⟨fun d => blockCls L d, fun _ => (⟨1/20, 2, false⟩ : BlockParam)⟩

theorem block_in_order (L : Lapack) : ∃ c : Matrix (Fin 3) (Fin 3) ℝ, (wrapped (blockProto L) 3 orderRows).covariance = .ok c ∧ c 0 1 = 1 := by
  have hu : used false (feedCalls orderRows) = orderRows := used_feedCalls orderRows
  have hE : ((Obj.new (ewaCls (Fin 3) ℝ) ⟨1/20, false⟩).run (feedCalls orderRows)).covariance = .ok !![2, 1, 0; 1, 1, 0; 0, 0, 1] := by
    rw [(ewa_attrs (⟨1/20, false⟩ : RParam ℝ) (feedCalls orderRows) (by show used false _ ≠ []; rw [hu]; simp [orderRows])).2]
    show Except.ok (ewaFold (1/20) (used false _)).cov = _
    rw [hu, order_cov]
  have hm : MinEigGE (!![2, 1, 0; 1, 1, 0; 0, 0, 1] : Matrix (Fin 3) (Fin 3) ℝ) (1 / 10 ^ 8) := by
    intro x
    rw [quad_expand]
    simp only [normSq, Fin.sum_univ_three]
    simp
    nlinarith [sq_nonneg (x 0 * 4 + x 1 * 3), sq_nonneg (x 0), sq_nonneg (x 1), sq_nonneg (x 0 + x 1), sq_nonneg (x 2)]
  have e1 := (C30_linear L ⟨1/20, 2, 0, "linear", false⟩ (by decide) (by norm_num) (by norm_num) _ _ hE).2.2 le_rfl zero_le_one hm
  have e2 := (C26_is_schur L (p := 3) ⟨1/20, 2, false⟩ (by norm_num) (by norm_num) "linear" (feedCalls orderRows)).1
  refine ⟨_, e2.trans e1, ?_⟩
  show damped (slices 3 (schurNb 2 3)) (0:ℝ) !![2, 1, 0; 1, 1, 0; 0, 0, 1] 0 1 = 1
  unfold damped
  have : SameBlock (slices 3 (schurNb 2 3)) 0 1 := ⟨(0, 2), by decide, by decide⟩
  simp [this]

theorem block_apart (L : Lapack) (ys : List (Fin 3 → ℝ)) (hy : ys ≠ []) :
    ∃ c : Matrix (Fin 3) (Fin 3) ℝ, (wrapped (blockProto L) 3 ys).covariance = .ok c ∧ c 0 2 = 0 := by
  have hyne : used false (feedCalls ys) ≠ [] := by rw [used_feedCalls]; exact hy
  have hc := (block_attrs L (p := 3) (⟨1/20, 2, false⟩ : BlockParam) (by norm_num) _ hyne).2
  refine ⟨_, hc, (C26_block L (p := 3) ⟨1/20, 2, false⟩ (by norm_num) _ _ hc).2.1 0 2 ?_⟩
  rintro ⟨b, hb, h5⟩
  have : slices 3 (nbClamped 2 3) = [(0, 2), (2, 3)] := by decide
  rw [this] at hb
  simp at hb
  rcases hb with rfl | rfl <;> simp at h5

/-- `orderRows` as keyed observations of `a`, `b` and `c` -/
noncomputable def orderDicts : List (KDict String) :=
  [⟨[("a", 2), ("b", 1), ("c", 1)], by decide⟩, ⟨[("a", -2), ("b", -1), ("c", 1)], by decide⟩,
   ⟨[("a", 0), ("b", 1), ("c", -1)], by decide⟩, ⟨[("a", 0), ("b", -1), ("c", -1)], by decide⟩]

/-- C112: around BlockCovariance the order does carry meaning: the same stream into two FixedUniverses whose `keys` are
`["a","b","c"]` and `["a","c","b"]`; asked for the same entry, the covariance of `a` and `b`, one answers 1 and the other 0. -/
theorem C112_block_depends_on_order (L : Lapack) (impute : String) :
    ∃ m m' : KeyedMat String, ((FixedU.new (blockProto L) (some ["a", "b", "c"]) impute).learnMany orderDicts).covArray .all = .ok m ∧
      ((FixedU.new (blockProto L) (some ["a", "c", "b"]) impute).learnMany orderDicts).covArray .all = .ok m' ∧
      m.1 = ["a", "b", "c"] ∧ m'.1 = ["a", "c", "b"] ∧ SameNames id m.1 m'.1 ∧
      (∀ i j : Fin m.1.length, m.1.get i = "a" → m.1.get j = "b" → m.2 i j = 1) ∧
      (∀ i j : Fin m'.1.length, m'.1.get i = "a" → m'.1.get j = "b" → m'.2 i j = 0) := by
  have hne : orderDicts ≠ [] := by simp [orderDicts]
  have h1 := C41_complete (P := blockProto L) impute (some ["a", "b", "c"]) orderDicts hne (by
    intro x hx
    simp only [orderDicts, List.mem_cons, List.not_mem_nil, or_false] at hx
    rcases hx with rfl | rfl | rfl | rfl <;> intro k hk <;> simpa [universeOf, KDict.keys] using hk)
  have h2 := C41_complete (P := blockProto L) impute (some ["a", "c", "b"]) orderDicts hne (by
    intro x hx
    simp only [orderDicts, List.mem_cons, List.not_mem_nil, or_false] at hx
    rcases hx with rfl | rfl | rfl | rfl <;> intro k hk <;> simp [universeOf, KDict.keys] at hk ⊢ <;> tauto)
  have r1 : orderDicts.map (rowOf (universeOf (some ["a", "b", "c"]) orderDicts)) = orderRows := by
    unfold orderDicts orderRows universeOf
    simp only [List.map_cons, List.map_nil, Option.getD_some]
    congr 1
    · funext i; change Fin 3 at i; fin_cases i <;> simp [rowOf, KDict.get?, List.lookup]
    congr 1
    · funext i; change Fin 3 at i; fin_cases i <;> simp [rowOf, KDict.get?, List.lookup]
    congr 1
    · funext i; change Fin 3 at i; fin_cases i <;> simp [rowOf, KDict.get?, List.lookup]
    congr 1
    · funext i; change Fin 3 at i; fin_cases i <;> simp [rowOf, KDict.get?, List.lookup]
  rw [r1] at h1
  obtain ⟨c, hc, o⟩ := block_in_order L
  obtain ⟨c', hc', z⟩ := block_apart L (orderDicts.map (rowOf (universeOf (some ["a", "c", "b"]) orderDicts))) (fun h0 => hne (List.map_eq_nil_iff.1 h0))
  have e1 : (wrapped (blockProto L) (universeOf (some ["a", "b", "c"]) orderDicts).length orderRows).covariance = .ok c := hc
  have e2 : (wrapped (blockProto L) (universeOf (some ["a", "c", "b"]) orderDicts).length
    (orderDicts.map (rowOf (universeOf (some ["a", "c", "b"]) orderDicts)))).covariance = .ok c' := hc'
  rw [e1] at h1
  rw [e2] at h2
  clear e1 e2 hc hc' r1 hne
  refine ⟨_, _, h1, h2, rfl, rfl, ?_, ?_, ?_⟩
  · intro k
    simp [universeOf]
    tauto
  · clear h1 h2 z
    show ∀ i j : Fin 3, ["a", "b", "c"].get i = "a" → ["a", "b", "c"].get j = "b" → c i j = 1
    intro i j hi hj
    have hi' : i = 0 := by revert hi; fin_cases i <;> simp
    have hj' : j = 1 := by revert hj; fin_cases j <;> simp
    rw [hi', hj']; exact o
  · clear h1 h2 o
    show ∀ i j : Fin 3, ["a", "c", "b"].get i = "a" → ["a", "c", "b"].get j = "b" → c' i j = 0
    intro i j hi hj
    have hi' : i = 0 := by revert hi; fin_cases i <;> simp
    have hj' : j = 2 := by revert hj; fin_cases j <;> simp
    rw [hi', hj']; exact z

/-! ### Non-vacuity -/

/-- prefixing a name with `x.` is injective -/
theorem prefix_injective : Function.Injective (fun k : String => "x." ++ k) := fun a b h => by simpa using h

/-- `demoDicts` with the prefix, items in another order -/
noncomputable def demoPrefixed : List (KDict String) :=
  [⟨[("x.b", 2), ("x.a", 1)], by decide⟩, ⟨[("x.a", 3), ("x.b", 4), ("x.c", 7)], by decide⟩]

/-- C112's hypotheses are met by `demoDicts` and `demoPrefixed`, with `keys` given as `["b","a"]` and `["x.a","x.b"]`, and the
answers exist. -/
example : List.Forall₂ (Renamed fun k : String => "x." ++ k) demoDicts demoPrefixed ∧
    RenamedKeys (fun k : String => "x." ++ k) (some ["b", "a"]) (some ["x.a", "x.b"]) ∧ OrderFree empProto ∧
    ∃ m, ((FixedU.new empProto (some ["b", "a"]) "ffill").learnMany demoDicts).covArray .all = .ok m := by
  have key : ∀ (x x' : KDict String), x'.items.Perm (x.items.map fun kv => ("x." ++ kv.1, kv.2)) → Renamed (fun k : String => "x." ++ k) x x' := by
    intro x x' h
    have hn : ((x.items.map fun kv => ("x." ++ kv.1, kv.2)).map Prod.fst).Nodup := (h.map Prod.fst).nodup_iff.1 x'.nodup
    have hm := match_inPlace prefix_injective (x := x) (x' := ⟨_, hn⟩) rfl
    refine ⟨fun k => ?_, fun k' hk' => ?_⟩
    · rw [KDict.get?_perm (y := ⟨_, hn⟩) h]; exact hm.value k
    · have : k' ∈ (x.items.map fun kv => ("x." ++ kv.1, kv.2)).map Prod.fst := (h.map Prod.fst).mem_iff.1 hk'
      simp only [List.map_map, List.mem_map, Function.comp] at this
      obtain ⟨kv, -, rfl⟩ := this
      exact ⟨kv.1, rfl⟩
  refine ⟨.cons (key _ _ ?_) (.cons (key _ _ ?_) .nil), ⟨by decide, by decide, ?_⟩, fun d d' e => C66_empirical e false, ?_⟩
  · exact List.Perm.swap _ _ _
  · exact ((List.Perm.swap _ _ _).cons _).trans ((List.Perm.swap _ _ _).trans ((List.Perm.swap _ _ _).cons _))
  · intro k'
    simp
    tauto
  · have h := C41_complete (P := empProto) "ffill" (some ["b", "a"]) demoDicts (by simp [demoDicts]) (by
      intro x hx
      simp only [demoDicts, List.mem_cons, List.not_mem_nil, or_false] at hx
      rcases hx with rfl | rfl <;> intro k hk <;> simp [universeOf, KDict.keys] at hk ⊢ <;> tauto)
    rw [(empProto_cov _ (by simp [demoDicts])).1] at h
    exact ⟨_, h⟩

end Precise
