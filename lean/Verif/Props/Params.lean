import Verif.Model.Params
import Mathlib.Tactic.NormNum

/-!
# C83: parameters — constructor arguments, `get_params`, `set_params`, cloning
-/

set_option linter.all false

namespace Precise

/-! Specification: what the call says a parameter is. -/

namespace Spec

/-- The value of parameter `k` (of a signature `sig`) in the call `Cls(*args, **kwargs)`: the positional argument in its
place, else the keyword, else the default. -/
def boundValue (sig : List (String × PArg)) (args : List PArg) (kwargs : List (String × PArg)) (i : ℕ) (k : String) (dflt : PArg) : PArg :=
  match args[i]? with
  | some v => v
  | none => (kwargs.lookup k).getD dflt

/-- The last value given to `k` in a sequence of assignments. -/
def lastWrite (kvs : List (String × PArg)) (k : String) : Option PArg :=
  (kvs.filter fun kv => kv.1 == k).getLast?.map Prod.snd

end Spec

open Spec

theorem lookup_setAttr (d : List (String × PArg)) (k : String) (v : PArg) (k' : String) :
    (setAttr d k v).lookup k' = if k' = k then some v else d.lookup k' := by
  induction d with
  | nil =>
    by_cases h : k' = k
    · simp [setAttr, List.lookup, h]
    · simp [setAttr, List.lookup, h, beq_eq_false_iff_ne.2 h]
  | cons a d ih =>
    obtain ⟨a, b⟩ := a
    unfold setAttr
    by_cases h : a = k
    · subst h
      rw [if_pos rfl]
      by_cases h' : k' = a
      · simp [List.lookup, h']
      · simp [List.lookup, h', beq_eq_false_iff_ne.2 h']
    · rw [if_neg h]
      by_cases h' : k' = a
      · subst h'
        simp [List.lookup, h]
      · simp only [List.lookup, beq_eq_false_iff_ne.2 h']
        exact ih

theorem lastWrite_append (xs ys : List (String × PArg)) (k : String) :
    lastWrite (xs ++ ys) k = (lastWrite ys k).or (lastWrite xs k) := by
  unfold lastWrite
  rw [List.filter_append, List.getLast?_append]
  cases (ys.filter fun kv => kv.1 == k).getLast? <;> simp

theorem lastWrite_single (k' : String) (v : PArg) (k : String) : lastWrite [(k', v)] k = if k' = k then some v else none := by
  unfold lastWrite
  by_cases h : k' = k
  · simp [h]
  · simp [h, beq_eq_false_iff_ne.2 h]

theorem lookup_foldl_setAttr (kvs : List (String × PArg)) (d : List (String × PArg)) (k : String) :
    (kvs.foldl (fun d kv => setAttr d kv.1 kv.2) d).lookup k = (lastWrite kvs k).or (d.lookup k) := by
  induction kvs using List.reverseRecOn with
  | nil => simp [lastWrite]
  | append_singleton kvs kv ih =>
    rw [List.foldl_append, List.foldl_cons, List.foldl_nil, lookup_setAttr, lastWrite_append]
    obtain ⟨k', v⟩ := kv
    rw [lastWrite_single]
    by_cases h : k' = k
    · simp [h]
    · rw [if_neg (Ne.symm h), if_neg h, ih]; simp

theorem lookup_map_of_nodup (sig : List (String × PArg)) (f : String × PArg → PArg) (hn : (sig.map Prod.fst).Nodup)
    (nd : String × PArg) (h : nd ∈ sig) : lastWrite (sig.map fun nd => (nd.1, f nd)) nd.1 = some (f nd) := by
  induction sig with
  | nil => cases h
  | cons a sig ih =>
    rw [List.map_cons, List.nodup_cons] at hn
    have e : (a :: sig).map (fun nd => (nd.1, f nd)) = [(a.1, f a)] ++ sig.map fun nd => (nd.1, f nd) := rfl
    rw [e, lastWrite_append, lastWrite_single]
    rcases List.mem_cons.1 h with rfl | h
    · have : lastWrite (sig.map fun nd => (nd.1, f nd)) nd.1 = none := by
        unfold lastWrite
        rw [List.filter_eq_nil_iff.2]
        · rfl
        · rintro ⟨k, v⟩ hk
          obtain ⟨b, hb, hb'⟩ := List.mem_map.1 hk
          simp only [beq_iff_eq]
          intro hkk
          apply hn.1
          rw [← hkk]
          have : b.1 = k := (Prod.mk.inj hb').1
          rw [← this]
          exact List.mem_map.2 ⟨b, hb, rfl⟩
      rw [this, if_pos rfl]; rfl
    · rw [ih hn.2 h]; rfl

/-- Every registered class has parameters with distinct names. -/
theorem signature_nodup (cls : String) : ((signature cls).map Prod.fst).Nodup := by
  have all : ∀ e ∈ signatures, (e.2.map Prod.fst).Nodup := by
    intro e he
    simp only [signatures, List.mem_cons, List.not_mem_nil, or_false] at he
    rcases he with rfl | rfl | rfl | rfl | rfl | rfl | rfl | rfl | rfl | rfl | rfl | rfl | rfl | rfl | rfl | rfl | rfl <;>
      simp
  have gen : ∀ l : List (String × List (String × PArg)), (∀ e ∈ l, (e.2.map Prod.fst).Nodup) →
      (((l.lookup cls).getD []).map Prod.fst).Nodup := by
    intro l
    induction l with
    | nil => intro _; simp [List.lookup]
    | cons a l ih =>
      intro h
      obtain ⟨a, b⟩ := a
      by_cases hc : cls = a
      · subst hc; simpa [List.lookup] using h (cls, b) (by simp)
      · simp only [List.lookup, beq_eq_false_iff_ne.2 hc]
        exact ih fun e he => h e (by simp [he])
  exact gen _ all

theorem mapM_ok {α β : Type} (f : α → Except PyErr β) (g : α → β) (l : List α) (h : ∀ a ∈ l, f a = .ok (g a)) :
    l.mapM f = .ok (l.map g) := by
  induction l with
  | nil => rfl
  | cons a l ih =>
    rw [List.mapM_cons, h a (by simp), ih fun b hb => h b (by simp [hb])]
    rfl

/-- Every attribute named by the signature exists. -/
def Inst.Complete (o : Inst) : Prop := ∀ k ∈ (signature o.cls).map Prod.fst, ∃ v, o.dict.lookup k = some v

theorem Inst.getParams_complete (o : Inst) (h : o.Complete) :
    o.getParams = .ok (((signature o.cls).map Prod.fst).map fun k => (k, (o.dict.lookup k).getD .none)) := by
  unfold Inst.getParams
  refine mapM_ok _ (fun k => (k, (o.dict.lookup k).getD .none)) _ fun k hk => ?_
  obtain ⟨v, hv⟩ := h k hk
  simp [hv]

theorem lookup_append' (a b : List (String × PArg)) (k : String) : (a ++ b).lookup k = (a.lookup k).or (b.lookup k) := by
  induction a with
  | nil => simp [List.lookup]
  | cons x a ih =>
    obtain ⟨x, y⟩ := x
    by_cases h : k = x
    · simp [List.lookup, h]
    · simp only [List.cons_append, List.lookup, beq_eq_false_iff_ne.2 h]; exact ih

theorem lookup_zip (names : List String) (hn : names.Nodup) (args : List PArg) (i : ℕ) (hi : i < names.length) :
    (names.zip args).lookup names[i] = args[i]? := by
  induction names generalizing args i with
  | nil => simp at hi
  | cons n names ih =>
    cases args with
    | nil => simp [List.lookup]
    | cons a args =>
      rw [List.nodup_cons] at hn
      cases i with
      | zero => simp [List.lookup]
      | succ i =>
        have hne : names[i]'(by simpa using hi) ≠ n := by
          intro h; apply hn.1; rw [← h]; exact List.getElem_mem _
        simp only [List.zip_cons_cons, List.getElem_cons_succ, List.lookup, beq_eq_false_iff_ne.2 hne]
        rw [ih hn.2 args i (by simpa using hi)]
        simp

theorem construct_ok {cls : String} {args : List PArg} {kwargs : List (String × PArg)} {o : Inst}
    (h : construct cls args kwargs = .ok o) :
    o.cls = cls ∧ ∀ i (hi : i < (signature cls).length),
      o.dict.lookup (signature cls)[i].1 = some (boundValue (signature cls) args kwargs i (signature cls)[i].1 (signature cls)[i].2) := by
  unfold construct at h
  cases hb : bindArgs (signature cls) args kwargs with
  | error e => rw [hb] at h; cases h
  | ok bound =>
    rw [hb] at h
    simp only [Except.map] at h
    cases h
    refine ⟨rfl, fun i hi => ?_⟩
    unfold bindArgs at hb
    split at hb
    · cases hb
    split at hb
    · cases hb
    simp only [] at hb
    split at hb
    · cases hb
    injection hb with hb
    subst hb
    simp only []
    rw [lookup_foldl_setAttr, lookup_map_of_nodup _ _ (signature_nodup cls) _ (List.getElem_mem hi)]
    simp only [Option.some_or, Option.some.injEq]
    rw [lookup_append']
    have hz := lookup_zip ((signature cls).map Prod.fst) (signature_nodup cls) args i (by simpa using hi)
    rw [List.getElem_map] at hz
    rw [hz]
    unfold boundValue
    cases args[i]? <;> simp

theorem construct_complete {cls : String} {args : List PArg} {kwargs : List (String × PArg)} {o : Inst}
    (h : construct cls args kwargs = .ok o) : o.Complete := by
  obtain ⟨h1, h2⟩ := construct_ok h
  intro k hk
  rw [h1] at hk
  obtain ⟨i, hi, rfl⟩ := List.getElem_of_mem hk
  rw [List.length_map] at hi
  rw [List.getElem_map]
  exact ⟨_, h2 i hi⟩

/-- C83: `get_params()` of a new instance lists the parameters of its constructor in order, each with the positional
argument, keyword argument or default the call gave it. -/
theorem C83_get_params (cls : String) (args : List PArg) (kwargs : List (String × PArg)) (o : Inst)
    (h : construct cls args kwargs = .ok o) :
    ∃ ps, o.getParams = .ok ps ∧ ps.map Prod.fst = (signature cls).map Prod.fst ∧
      ∀ i (hi : i < (signature cls).length) (hp : i < ps.length),
        ps[i].2 = boundValue (signature cls) args kwargs i (signature cls)[i].1 (signature cls)[i].2 := by
  obtain ⟨h1, h2⟩ := construct_ok h
  refine ⟨_, Inst.getParams_complete o (construct_complete h), ?_, fun i hi hp => ?_⟩
  · rw [h1, List.map_map]; simp
  · simp only [List.getElem_map, h1]
    rw [h2 i hi]; rfl

/-- C83: a constructor call raises (TypeError, nothing else) exactly when there are too many positional arguments, a
keyword that is not a parameter, or a parameter given both ways. No value is rejected. -/
theorem C83_construct_rejects (cls : String) (args : List PArg) (kwargs : List (String × PArg)) :
    (∀ e, construct cls args kwargs = .error e → e = .typeError) ∧
    ((∃ o, construct cls args kwargs = .ok o) ↔
      args.length ≤ (signature cls).length ∧ (∀ kv ∈ kwargs, kv.1 ∈ (signature cls).map Prod.fst) ∧
      (∀ kv ∈ kwargs, kv.1 ∉ ((signature cls).map Prod.fst).take args.length)) := by
  have hz : ∀ (n : List String) (a : List PArg), (n.zip a).map Prod.fst = n.take a.length := by
    intro n
    induction n with
    | nil => intro a; simp
    | cons x n ih => intro a; cases a with
      | nil => simp
      | cons y a => simp [ih a]
  unfold construct bindArgs
  constructor
  · intro e he
    split at he
    · injection he with he; exact he.symm
    split at he
    · injection he with he; exact he.symm
    simp only [] at he
    split at he
    · injection he with he; exact he.symm
    · cases he
  · by_cases c1 : (signature cls).length < args.length
    · rw [if_pos c1]
      constructor
      · rintro ⟨o, h⟩; cases h
      · rintro ⟨h, _⟩; omega
    rw [if_neg c1]
    by_cases c2 : kwargs.any (fun kv => !(((signature cls).map Prod.fst).contains kv.1)) = true
    · rw [if_pos c2]
      constructor
      · rintro ⟨o, h⟩; cases h
      · rintro ⟨_, h, _⟩
        obtain ⟨kv, hk, hk'⟩ := List.any_eq_true.1 c2
        have := h kv hk
        simp only [Bool.not_eq_true', List.contains_eq_mem, decide_eq_false_iff_not] at hk'
        exact absurd this hk'
    rw [if_neg c2]
    simp only []
    rw [hz]
    by_cases c3 : kwargs.any (fun kv => (((signature cls).map Prod.fst).take args.length).contains kv.1) = true
    · rw [if_pos c3]
      constructor
      · rintro ⟨o, h⟩; cases h
      · rintro ⟨_, _, h⟩
        obtain ⟨kv, hk, hk'⟩ := List.any_eq_true.1 c3
        simp only [List.contains_eq_mem, decide_eq_true_eq] at hk'
        exact absurd hk' (h kv hk)
    rw [if_neg c3]
    refine ⟨fun _ => ⟨by omega, fun kv hk => ?_, fun kv hk hk' => ?_⟩, fun _ => ⟨_, rfl⟩⟩
    · by_contra hcon
      exact c2 (List.any_eq_true.2 ⟨kv, hk, by simpa [List.contains_eq_mem] using hcon⟩)
    · exact c3 (List.any_eq_true.2 ⟨kv, hk, by simpa [List.contains_eq_mem] using hk'⟩)

/-! Instances reached from a constructor call by `set_params` calls. -/

/-- The instance after some `set_params` calls (exceptions caught). -/
def Inst.setAll (o : Inst) (calls : List (List (String × PArg))) : Inst := calls.foldl (fun o kvs => (o.setParams kvs).1) o

/-- The attributes of a fitted estimator that cannot be assigned to. -/
abbrev Spec.fittedAttributes : List String := ["n_samples_", "location_", "covariance_", "correlation_", "precision_"]

/-- The assignments a `set_params` call performs: those before the first read-only name. -/
def Spec.performed (kvs : List (String × PArg)) : List (String × PArg) :=
  kvs.takeWhile fun kv => decide (kv.1 ∉ fittedAttributes)

theorem setParams_spec (o : Inst) (kvs : List (String × PArg)) :
    (o.setParams kvs).1.cls = o.cls ∧
    (∀ k, (o.setParams kvs).1.dict.lookup k = (lastWrite (performed kvs) k).or (o.dict.lookup k)) ∧
    (((o.setParams kvs).2 = .ok () ∧ ∀ kv ∈ kvs, kv.1 ∉ fittedAttributes) ∨
      ((o.setParams kvs).2 = .error .attributeError ∧ ∃ kv ∈ kvs, kv.1 ∈ fittedAttributes)) := by
  induction kvs generalizing o with
  | nil => exact ⟨rfl, fun k => by simp [Inst.setParams, performed, lastWrite], Or.inl ⟨rfl, by simp⟩⟩
  | cons kv kvs ih =>
    obtain ⟨k, v⟩ := kv
    unfold Inst.setParams
    by_cases h : readOnly.contains k = true
    · rw [if_pos h]
      have hm : k ∈ fittedAttributes := by
        simpa [readOnly, List.contains_eq_mem] using h
      have hp : performed ((k, v) :: kvs) = [] := by
        unfold performed
        rw [List.takeWhile_cons, if_neg (by rw [decide_eq_true_eq]; exact not_not.2 hm)]
      rw [hp]
      exact ⟨rfl, fun k' => by simp [lastWrite], Or.inr ⟨rfl, (k, v), by simp, hm⟩⟩
    · rw [if_neg h]
      have hm : k ∉ fittedAttributes := by
        simpa [readOnly, List.contains_eq_mem] using h
      have hp : performed ((k, v) :: kvs) = [(k, v)] ++ performed kvs := by
        unfold performed
        rw [List.takeWhile_cons, if_pos (by simpa using hm)]; rfl
      obtain ⟨i1, i2, i3⟩ := ih { o with dict := setAttr o.dict k v }
      refine ⟨i1, fun k' => ?_, ?_⟩
      · rw [i2, hp, lastWrite_append, lastWrite_single, lookup_setAttr]
        cases lastWrite (performed kvs) k' with
        | some w => simp
        | none =>
          by_cases hk : k = k'
          · simp [hk]
          · simp [hk, Ne.symm hk]
      · rcases i3 with ⟨h1, h2⟩ | ⟨h1, kv, h2, h3⟩
        · exact Or.inl ⟨h1, fun kv hkv => by
            rcases List.mem_cons.1 hkv with rfl | hkv
            · exact hm
            · exact h2 kv hkv⟩
        · exact Or.inr ⟨h1, kv, by simp [h2], h3⟩

theorem setAll_complete (o : Inst) (h : o.Complete) (calls : List (List (String × PArg))) :
    (o.setAll calls).cls = o.cls ∧ (o.setAll calls).Complete := by
  induction calls generalizing o with
  | nil => exact ⟨rfl, h⟩
  | cons kvs calls ih =>
    obtain ⟨s1, s2, _⟩ := setParams_spec o kvs
    have hc : (o.setParams kvs).1.Complete := by
      intro k hk
      rw [s1] at hk
      obtain ⟨v, hv⟩ := h k hk
      rw [s2, hv]
      cases lastWrite (performed kvs) k <;> simp
    obtain ⟨i1, i2⟩ := ih _ hc
    exact ⟨i1.trans s1, i2⟩

/-- C83: after `set_params(**kvs)` every parameter has the last value written to it, or the one it had; the call raises
AttributeError exactly when a read-only attribute of the class is among the names, and the names before it (only those)
are written. -/
theorem C83_set_params (cls : String) (args : List PArg) (kwargs : List (String × PArg)) (o : Inst)
    (h : construct cls args kwargs = .ok o) (calls : List (List (String × PArg))) (kvs : List (String × PArg)) :
    let a := o.setAll calls
    ∃ ps qs, a.getParams = .ok ps ∧ (a.setParams kvs).1.getParams = .ok qs ∧
      ps.map Prod.fst = (signature cls).map Prod.fst ∧ qs.map Prod.fst = (signature cls).map Prod.fst ∧
      (∀ k ∈ (signature cls).map Prod.fst, qs.lookup k = (lastWrite (performed kvs) k).or (ps.lookup k)) ∧
      (((a.setParams kvs).2 = .ok () ∧ ∀ kv ∈ kvs, kv.1 ∉ fittedAttributes) ∨
        ((a.setParams kvs).2 = .error .attributeError ∧ ∃ kv ∈ kvs, kv.1 ∈ fittedAttributes)) := by
  intro a
  obtain ⟨c1, c2⟩ := setAll_complete o (construct_complete h) calls
  obtain ⟨s1, s2, s3⟩ := setParams_spec a kvs
  obtain ⟨_, c3⟩ := setAll_complete a c2 [kvs]
  have hcls : a.cls = cls := c1.trans (construct_ok h).1
  have e : (a.setAll [kvs]) = (a.setParams kvs).1 := rfl
  rw [e] at c3
  have look : ∀ (names : List String) (f : String → PArg) (k : String), k ∈ names → (names.map fun k => (k, f k)).lookup k = some (f k) := by
    intro names f k hk
    induction names with
    | nil => cases hk
    | cons n names ih =>
      by_cases hn : k = n
      · simp [List.lookup, hn]
      · simp only [List.map_cons, List.lookup, beq_eq_false_iff_ne.2 hn]
        exact ih (by simpa [hn] using hk)
  refine ⟨_, _, Inst.getParams_complete a c2, Inst.getParams_complete _ c3, ?_, ?_, fun k hk => ?_, s3⟩
  · rw [hcls, List.map_map]; simp
  · rw [s1, hcls, List.map_map]; simp
  · rw [s1, hcls, look _ _ k hk, look _ _ k hk, s2]
    obtain ⟨v, hv⟩ := c2 k (by rw [hcls]; exact hk)
    rw [hv]
    cases lastWrite (performed kvs) k <;> simp

/-- C83: cloning (`type(est)(**est.get_params())`) always succeeds, whatever was set before, and gives the same class and
parameters; so does the constructor call inside unpickling, and the keyed adapters' factory. -/
theorem C83_clone (cls : String) (args : List PArg) (kwargs : List (String × PArg)) (o : Inst)
    (h : construct cls args kwargs = .ok o) (calls : List (List (String × PArg))) :
    let a := o.setAll calls
    ∃ b ps, a.clone = .ok b ∧ a.unpickled = .ok b ∧ (∃ f, factoryOfInstance a [] = .ok f ∧ f () = .ok b) ∧
      b.cls = cls ∧ a.getParams = .ok ps ∧ b.getParams = .ok ps := by
  intro a
  obtain ⟨c1, c2⟩ := setAll_complete o (construct_complete h) calls
  have hcls : a.cls = cls := c1.trans (construct_ok h).1
  have hg := Inst.getParams_complete a c2
  obtain ⟨b, hb⟩ := (C83_construct_rejects cls [] (((signature cls).map Prod.fst).map fun k => (k, (a.dict.lookup k).getD .none))).2.2
    ⟨Nat.zero_le _, fun kv hk => by
      obtain ⟨k, hk', rfl⟩ := List.mem_map.1 hk
      exact hk', by simp⟩
  obtain ⟨b1, b2⟩ := construct_ok hb
  have hc : a.clone = .ok b := by
    unfold Inst.clone; rw [hg, hcls]; exact hb
  have hu : a.unpickled = .ok b := by
    unfold Inst.unpickled; rw [hg, hcls]; exact hb
  refine ⟨b, _, hc, hu, ⟨fun _ => a.clone, by simp [factoryOfInstance], hc⟩, b1, hg, ?_⟩
  rw [Inst.getParams_complete b (construct_complete hb), b1, hcls]
  congr 1
  refine List.map_congr_left fun k hk => ?_
  obtain ⟨i, hi, rfl⟩ := List.getElem_of_mem hk
  have hi' := hi
  rw [List.length_map] at hi'
  have := b2 i hi'
  rw [List.getElem_map, this]
  congr 1
  have look : ∀ (names : List String) (f : String → PArg) (k : String), k ∈ names → (names.map fun k => (k, f k)).lookup k = some (f k) := by
    intro names f k hk
    induction names with
    | nil => cases hk
    | cons n names ih =>
      by_cases hn : k = n
      · simp [List.lookup, hn]
      · simp only [List.map_cons, List.lookup, beq_eq_false_iff_ne.2 hn]
        exact ih (by simpa [hn] using hk)
  unfold boundValue
  simp only [List.getElem?_nil, Option.getD_some]
  rw [look _ (fun k => (a.dict.lookup k).getD .none) _ (by rw [← List.getElem_map (f := Prod.fst) (h := hi)]; exact List.getElem_mem _)]
  rfl

/-- C83: `set_params(**get_params())` changes no parameter. -/
theorem C83_set_own (cls : String) (args : List PArg) (kwargs : List (String × PArg)) (o : Inst)
    (h : construct cls args kwargs = .ok o) (calls : List (List (String × PArg))) :
    let a := o.setAll calls
    ∃ ps, a.getParams = .ok ps ∧ (a.setParams ps).1.getParams = .ok ps := by
  intro a
  obtain ⟨c1, c2⟩ := setAll_complete o (construct_complete h) calls
  have hg := Inst.getParams_complete a c2
  obtain ⟨s1, s2, _⟩ := setParams_spec a (((signature a.cls).map Prod.fst).map fun k => (k, (a.dict.lookup k).getD .none))
  obtain ⟨_, c3⟩ := setAll_complete a c2 [((signature a.cls).map Prod.fst).map fun k => (k, (a.dict.lookup k).getD .none)]
  refine ⟨_, hg, ?_⟩
  refine (Inst.getParams_complete _ c3).trans ?_
  show Except.ok (((signature (a.setParams _).1.cls).map Prod.fst).map _) = _
  rw [s1]
  congr 1
  refine List.map_congr_left fun k hk => ?_
  show (k, ((a.setParams _).1.dict.lookup k).getD _) = _
  rw [s2]
  obtain ⟨v, hv⟩ := c2 k hk
  have : ∀ w, lastWrite (performed (((signature a.cls).map Prod.fst).map fun k => (k, (a.dict.lookup k).getD .none))) k = some w → w = v := by
    intro w hw
    unfold lastWrite at hw
    obtain ⟨kv, h1, h2⟩ := Option.map_eq_some_iff.1 hw
    have hm := List.mem_of_getLast? h1
    rw [List.mem_filter] at hm
    have hm2 := (List.takeWhile_sublist _).subset hm.1
    obtain ⟨k', _, rfl⟩ := List.mem_map.1 hm2
    have : k' = k := by simpa using hm.2
    subst this
    rw [← h2, hv]; rfl
  cases hw : lastWrite (performed (((signature a.cls).map Prod.fst).map fun k => (k, (a.dict.lookup k).getD .none))) k with
  | none => simp
  | some w => rw [this w hw, hv]; simp

/-- C83 (finding): a misspelt name is accepted silently. `set_params` with a name that is no parameter (and no read-only
attribute) succeeds, no parameter changes, and clones and pickles do not have the attribute. The constructor, by
contrast, raises TypeError on it. -/
theorem C83_unknown_name (cls : String) (args : List PArg) (kwargs : List (String × PArg)) (o : Inst)
    (h : construct cls args kwargs = .ok o) (k : String) (v : PArg) (hk : k ∉ (signature cls).map Prod.fst)
    (hr : k ∉ fittedAttributes) :
    (o.setParams [(k, v)]).2 = .ok () ∧ (o.setParams [(k, v)]).1.getParams = o.getParams ∧
    (o.setParams [(k, v)]).1.dict.lookup k = some v ∧
    (∃ b, (o.setParams [(k, v)]).1.clone = .ok b ∧ b.dict.lookup k = none) ∧
    construct cls [] [(k, v)] = .error .typeError := by
  have hp : performed [(k, v)] = [(k, v)] := by
    unfold performed
    rw [List.takeWhile_cons, if_pos (by simpa using hr)]; rfl
  obtain ⟨s1, s2, s3⟩ := setParams_spec o [(k, v)]
  rw [hp] at s2
  have hcls := (construct_ok h).1
  have hc := construct_complete h
  obtain ⟨_, c3⟩ := setAll_complete o hc [[(k, v)]]
  have g1 : (o.setParams [(k, v)]).1.getParams = o.getParams := by
    refine (Inst.getParams_complete _ c3).trans ?_
    rw [Inst.getParams_complete o hc]
    show Except.ok (((signature (o.setParams _).1.cls).map Prod.fst).map _) = _
    rw [s1]
    congr 1
    refine List.map_congr_left fun k' hk' => ?_
    show (k', ((o.setParams _).1.dict.lookup k').getD _) = _
    rw [s2, lastWrite_single, if_neg (by rintro rfl; exact hk (hcls ▸ hk'))]
    simp
  refine ⟨by
      rcases s3 with h1 | ⟨_, kv, h2, h3⟩
      · exact h1.1
      · rw [List.mem_singleton.1 h2] at h3; exact absurd h3 hr, g1, by rw [s2, lastWrite_single, if_pos rfl]; rfl, ?_, ?_⟩
  · obtain ⟨b, ps, h1, _, _, h4, h5, h6⟩ := C83_clone cls args kwargs o h [[(k, v)]]
    refine ⟨b, h1, ?_⟩
    -- the clone's `__dict__` has the parameter names only
    have h1' : (o.setParams [(k, v)]).1.clone = .ok b := h1
    unfold Inst.clone at h1'
    rw [g1, Inst.getParams_complete o hc, s1, hcls] at h1'
    unfold construct at h1'
    cases hb : bindArgs (signature cls) [] (((signature cls).map Prod.fst).map fun k => (k, (o.dict.lookup k).getD .none)) with
    | error e => simp only [] at h1'; rw [hb] at h1'; cases h1'
    | ok bound =>
      simp only [] at h1'
      rw [hb] at h1'
      cases h1'
      simp only []
      rw [lookup_foldl_setAttr]
      have : lastWrite bound k = none := by
        unfold bindArgs at hb
        split at hb
        · cases hb
        split at hb
        · cases hb
        simp only [] at hb
        split at hb
        · cases hb
        injection hb with hb
        subst hb
        unfold lastWrite
        rw [List.filter_eq_nil_iff.2]
        · rfl
        · rintro ⟨k', v'⟩ hm
          obtain ⟨nd, hnd, he⟩ := List.mem_map.1 hm
          simp only [beq_iff_eq]
          rintro rfl
          apply hk
          rw [← (Prod.mk.inj he).1]
          exact List.mem_map.2 ⟨nd, hnd, rfl⟩
      rw [this]; rfl
  · unfold construct bindArgs
    rw [if_neg (by simp), if_pos]
    · rfl
    · simp only [List.any_cons, List.any_nil, Bool.or_false, Bool.not_eq_true', List.contains_eq_mem, decide_eq_false_iff_not]
      exact hk

/-- C83: every registered class can be constructed without arguments, has a `diff` parameter that is off by default and,
except for EmpiricalCovariance, a rate `r = 0.05`. -/
theorem C83_defaults (cls : String) (hc : cls ∈ estimatorNames) :
    ∃ o ps, construct cls [] [] = .ok o ∧ o.getParams = .ok ps ∧ ps = signature cls ∧
      ps.lookup "diff" = some (.bool false) ∧
      (cls ≠ "EmpiricalCovariance" → ps.lookup "r" = some (.float (1 / 20))) := by
  obtain ⟨o, ho⟩ := (C83_construct_rejects cls [] []).2.2 ⟨Nat.zero_le _, by simp, by simp⟩
  obtain ⟨ps, h1, h2, h3⟩ := C83_get_params cls [] [] o ho
  have hl : ps.length = (signature cls).length := by
    have := congrArg List.length h2
    simpa using this
  have he : ps = signature cls := by
    refine List.ext_getElem hl fun i hi hi' => ?_
    refine Prod.ext ?_ ?_
    · have := congrArg (fun l => l[i]?) h2
      simpa [hi, hi'] using this
    · rw [h3 i hi' hi]; simp [boundValue, List.lookup]
  refine ⟨o, ps, ho, h1, he, ?_, ?_⟩
  · rw [he]
    simp only [estimatorNames, List.mem_cons, List.not_mem_nil, or_false] at hc
    rcases hc with rfl | rfl | rfl | rfl | rfl | rfl | rfl | rfl | rfl | rfl | rfl | rfl | rfl | rfl | rfl | rfl | rfl <;>
      simp [signature, signatures, List.lookup]
  · intro hn
    rw [he]
    simp only [estimatorNames, List.mem_cons, List.not_mem_nil, or_false] at hc
    rcases hc with rfl | rfl | rfl | rfl | rfl | rfl | rfl | rfl | rfl | rfl | rfl | rfl | rfl | rfl | rfl | rfl | rfl <;>
      first | exact absurd rfl hn | simp [signature, signatures, List.lookup]

/-! The documented parameters. -/

namespace Spec

/-- The default of a parameter, the same in every class that has it. -/
noncomputable def defaultOf : String → PArg
  | "r" => .float 0.05
  | "max_r" => .float 0.5
  | "n_blocks" => .int 4
  | "gamma" => .float 0.5
  | "interpolation" => .str "linear"
  | "delta" => .float 0.1
  | "target" => .str "constant_correlation"
  | "c" => .float 2.5
  | "k" => .int 2
  | "diff" => .bool false
  | _ => .none

/-- The parameters a class has between `r` and `diff`. -/
def extraParams : String → List String
  | "BlockCovariance" | "SchurConditionalCovariance" | "SchurLedoitWolfCovariance" => ["n_blocks"]
  | "SchurCovariance" => ["n_blocks", "gamma", "interpolation"]
  | "AdaptiveEwaCovariance" => ["max_r"]
  | "ShrunkCovariance" => ["delta", "target"]
  | "HuberCovariance" => ["c"]
  | "DCCCovariance" => ["vol_r"]
  | _ => []

end Spec

/-- C83: what `Cls().get_params()` returns, for every registered class: `r`, then the class's own parameters, then `diff`, each with
its documented default; EmpiricalCovariance has no `r`, FactorCovariance has `k` before it. -/
theorem C83_parameters (cls : String) (hc : cls ∈ estimatorNames) :
    ∃ o, construct cls [] [] = .ok o ∧
      o.getParams = .ok (((if cls = "FactorCovariance" then ["k"] else []) ++ (if cls = "EmpiricalCovariance" then [] else ["r"]) ++
        extraParams cls ++ ["diff"]).map fun k => (k, defaultOf k)) := by
  obtain ⟨o, ps, h1, h2, h3, -, -⟩ := C83_defaults cls hc
  refine ⟨o, h1, ?_⟩
  rw [h2, h3]
  congr 1
  simp only [estimatorNames, List.mem_cons, List.not_mem_nil, or_false] at hc
  rcases hc with rfl | rfl | rfl | rfl | rfl | rfl | rfl | rfl | rfl | rfl | rfl | rfl | rfl | rfl | rfl | rfl | rfl <;>
    simp [signature, signatures, List.lookup, extraParams, defaultOf] <;> norm_num

/-- C83: the first positional argument is the rate, except that `EmpiricalCovariance(0.1)` sets `diff` and `FactorCovariance(0.1)` sets
`k`, both without an error. -/
theorem C83_first_positional (cls : String) (hc : cls ∈ estimatorNames) (v : PArg) :
    ∃ o, construct cls [v] [] = .ok o ∧
      o.dict.lookup (if cls = "EmpiricalCovariance" then "diff" else if cls = "FactorCovariance" then "k" else "r") = some v := by
  have hlen : 0 < (signature cls).length ∧ (∀ h : 0 < (signature cls).length, (signature cls)[0].1 =
      (if cls = "EmpiricalCovariance" then "diff" else if cls = "FactorCovariance" then "k" else "r")) := by
    simp only [estimatorNames, List.mem_cons, List.not_mem_nil, or_false] at hc
    rcases hc with rfl | rfl | rfl | rfl | rfl | rfl | rfl | rfl | rfl | rfl | rfl | rfl | rfl | rfl | rfl | rfl | rfl <;>
      simp [signature, signatures, List.lookup]
  obtain ⟨o, ho⟩ := (C83_construct_rejects cls [v] []).2.2 ⟨hlen.1, by simp, by simp⟩
  refine ⟨o, ho, ?_⟩
  have := (construct_ok ho).2 0 hlen.1
  rw [hlen.2 hlen.1] at this
  rw [this]; rfl

/-- C83: the factory of the keyed adapters: keyword arguments go with a class, each must name a parameter (TypeError when
the first observation arrives, otherwise), and they are refused with an instance. -/
theorem C83_factory (o : Inst) (cls : String) (kwargs : List (String × PArg)) :
    (kwargs ≠ [] → factoryOfInstance o kwargs = .error .valueError) ∧
    ((∃ a, factoryOfClass cls kwargs = .ok a) ↔ ∀ kv ∈ kwargs, kv.1 ∈ (signature cls).map Prod.fst) ∧
    (∀ e, factoryOfClass cls kwargs = .error e → e = .typeError) := by
  refine ⟨fun h => ?_, ?_, (C83_construct_rejects cls [] kwargs).1⟩
  · unfold factoryOfInstance
    rw [if_pos h]
  · refine (C83_construct_rejects cls [] kwargs).2.trans ?_
    simp

/-! Non-vacuity. -/

example : ∃ o, construct "HuberCovariance" [.float (1 / 10)] [("diff", .bool true)] = .ok o ∧
    o.getParams = .ok [("r", .float (1 / 10)), ("c", .float (5 / 2)), ("diff", .bool true)] := by
  refine ⟨_, rfl, ?_⟩
  simp [Inst.getParams, signature, signatures, List.lookup, setAttr]
  rfl

example : "n_block" ∉ (signature "BlockCovariance").map Prod.fst := by
  simp [signature, signatures, List.lookup]

end Precise
