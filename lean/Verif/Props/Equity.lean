import Verif.Model.Equity
import Verif.Props.OosShipped
import Verif.Props.AssessOther

/-!
# C88: the rolling study on real returns
-/

set_option linter.all false

namespace Precise.Oos

open Precise.Spec Matrix Obj

variable {p : ℕ} (L : Lapack)

/-! ## Windows -/

/-- C88: a window starts at row `t` exactly when `t` is a multiple of `step` and its training and test rows all exist; the starts
are increasing; `step=0` raises ValueError. -/
theorem C88_windows (T trainLen testLen step : ℕ) :
    (step = 0 → rollStarts T trainLen testLen step = .error .valueError) ∧
    (0 < step → ∃ ts, rollStarts T trainLen testLen step = .ok ts ∧ ts.Pairwise (· < ·) ∧
      ∀ t, t ∈ ts ↔ step ∣ t ∧ t + trainLen + testLen ≤ T) := by
  unfold rollStarts
  refine ⟨fun h => by rw [if_pos h], fun h => ⟨_, by rw [if_neg h.ne'], ?_, fun t => ?_⟩⟩
  · unfold pyRangeStep
    rw [List.pairwise_map]
    exact List.pairwise_lt_range.imp fun hab => Nat.mul_lt_mul_of_pos_right hab h
  · unfold pyRangeStep
    simp only [List.mem_map, List.mem_range]
    constructor
    · rintro ⟨k, hk, rfl⟩
      refine ⟨⟨k, Nat.mul_comm _ _⟩, ?_⟩
      have h1 := (Nat.le_div_iff_mul_le h).1 (Nat.succ_le_of_lt hk)
      rw [Nat.succ_mul] at h1
      omega
    · rintro ⟨⟨k, rfl⟩, hle⟩
      have e : step * k = k * step := Nat.mul_comm _ _
      refine ⟨k, Nat.lt_of_succ_le ((Nat.le_div_iff_mul_le h).2 ?_), e.symm⟩
      rw [Nat.succ_mul]
      omega

theorem slice_append (R : List (Fin p → ℝ)) (a b c : ℕ) (h1 : a ≤ b) (h2 : b ≤ c) : slice R a b ++ slice R b c = slice R a c := by
  unfold slice
  refine List.ext_getElem? fun i => ?_
  rw [List.getElem?_append]
  simp only [List.length_drop, List.length_take, List.getElem?_drop, List.getElem?_take]
  by_cases hi : i < min b R.length - a
  · rw [if_pos hi, if_pos (by omega), if_pos (by omega)]
  · rw [if_neg hi]
    by_cases hb : R.length ≤ b
    · have : min b R.length = R.length := by omega
      rw [this] at hi ⊢
      by_cases h3 : b + (i - (R.length - a)) < c <;> by_cases h4 : a + i < c <;> simp only [h3, h4, if_true, if_false]
      all_goals first
        | rfl
        | (rw [List.getElem?_eq_none (by omega), List.getElem?_eq_none (by omega)])
        | (rw [List.getElem?_eq_none (by omega)])
    · have : min b R.length = b := by omega
      rw [this] at hi ⊢
      have e : b + (i - (b - a)) = a + i := by omega
      rw [e]

/-- C88: with `step = test_len` (the default) every out-of-sample day is used exactly once: the test windows, one after the other,
are the consecutive rows after the first `train_len`. -/
theorem C88_each_day_once (R : List (Fin p → ℝ)) (trainLen testLen : ℕ) (h : 0 < testLen) :
    ∃ ts, rollStarts R.length trainLen testLen testLen = .ok ts ∧
      ts.flatMap (fun t => slice R (t + trainLen) (t + trainLen + testLen)) = slice R trainLen (trainLen + ts.length * testLen) ∧
      ts.length * testLen ≤ R.length - trainLen ∧ R.length - trainLen < ts.length * testLen + testLen := by
  refine ⟨_, by rw [rollStarts, if_neg h.ne'], ?_, ?_, ?_⟩
  · unfold pyRangeStep
    generalize (R.length + 1 - trainLen - testLen + testLen - 1) / testLen = n
    rw [List.length_map, List.length_range]
    induction n with
    | zero => simp [slice]
    | succ n ih =>
      rw [List.range_succ, List.map_append, List.flatMap_append, ih]
      simp only [List.map_cons, List.map_nil, List.flatMap_cons, List.flatMap_nil, List.append_nil]
      have e1 : n * testLen + trainLen = trainLen + n * testLen := by omega
      have e2 : trainLen + n * testLen + testLen = trainLen + (n + 1) * testLen := by rw [Nat.succ_mul]; omega
      rw [e1, e2]
      exact slice_append R _ _ _ (by omega) (by rw [← e2]; omega)
  · unfold pyRangeStep
    rw [List.length_map, List.length_range]
    by_cases h1 : trainLen + testLen ≤ R.length
    · have e : R.length + 1 - trainLen - testLen + testLen - 1 = R.length - trainLen := by omega
      rw [e]; exact Nat.div_mul_le_self _ _
    · have e : R.length + 1 - trainLen - testLen + testLen - 1 = testLen - 1 := by omega
      rw [e, Nat.div_eq_of_lt (by omega)]; simp
  · unfold pyRangeStep
    rw [List.length_map, List.length_range]
    by_cases h1 : trainLen + testLen ≤ R.length
    · have e : R.length + 1 - trainLen - testLen + testLen - 1 = R.length - trainLen := by omega
      rw [e]
      have := Nat.lt_div_mul_add (a := R.length - trainLen) h
      omega
    · have e : R.length + 1 - trainLen - testLen + testLen - 1 = testLen - 1 := by omega
      rw [e, Nat.div_eq_of_lt (by omega)]; omega

/-! ## No look-ahead -/

/-- The weights computed from a training window. -/
noncomputable def weightsOf (L : Lapack) (train : List (Fin p → ℝ)) :
    List (String × (List (Call (Fin p) ℝ) → Except PyErr (Matrix (Fin p) (Fin p) ℝ))) → Except PyErr (List (String × Option (Fin p → ℝ)))
  | [] => .ok []
  | (name, f) :: rest =>
    match f [.fit (.batch train)] with
    | .error e => .error e
    | .ok cov =>
      match weightsOf L train rest with
      | .error e => .error e
      | .ok l => .ok ((name, gmvNum L cov) :: l)

theorem scoreAll_eq (train test : List (Fin p → ℝ)) (l : List (String × (List (Call (Fin p) ℝ) → Except PyErr (Matrix (Fin p) (Fin p) ℝ)))) :
    scoreAll L train test l = (weightsOf L train l).map fun ws => ws.map fun w => (w.1, realized w.2 test) := by
  induction l with
  | nil => rfl
  | cons e l ih =>
    obtain ⟨n, f⟩ := e
    unfold scoreAll weightsOf
    cases f [.fit (.batch train)] with
    | error e => rfl
    | ok cov =>
      simp only []
      rw [ih]
      cases weightsOf L train l with
      | error e => rfl
      | ok ws => rfl

theorem weightsOf_keys (train : List (Fin p → ℝ)) (l : List (String × (List (Call (Fin p) ℝ) → Except PyErr (Matrix (Fin p) (Fin p) ℝ))))
    (ws) (h : weightsOf L train l = .ok ws) : ws.map Prod.fst = l.map Prod.fst := by
  induction l generalizing ws with
  | nil => cases h; rfl
  | cons e l ih =>
    obtain ⟨n, f⟩ := e
    unfold weightsOf at h
    cases hf : f [.fit (.batch train)] with
    | error e => rw [hf] at h; cases h
    | ok cov =>
      rw [hf] at h
      simp only [] at h
      cases hw : weightsOf L train l with
      | error e => rw [hw] at h; cases h
      | ok ws' =>
        rw [hw] at h; cases h
        simp [ih ws' hw]

/-- A window succeeds iff every estimator can be fitted on its training rows; then everything is determined by the weights. -/
theorem rollAt_eq (R : List (Fin p → ℝ)) (trainLen testLen t : ℕ) :
    let train := slice R t (t + trainLen)
    let test := slice R (t + trainLen) (t + trainLen + testLen)
    rollAt L R trainLen testLen t = match weightsOf L train (outOfBox L p) with
      | .error e => .error e
      | .ok ws => .ok
        { this := ws.map fun w => (w.1, realized w.2 test)
          pick := topPick L train
          recommended := ((ws.map fun w => (w.1, realized w.2 test)).lookup (topPick L train)).getD none
          oracle := pyMin (ws.map fun w => realized w.2 test)
          equal := realized (some fun _ => 1 / (p : ℝ)) test } := by
  intro train test
  unfold rollAt
  simp only []
  rw [scoreAll_eq]
  cases hw : weightsOf L train (outOfBox L p) with
  | error e => rfl
  | ok ws =>
    have hk := weightsOf_keys L train _ ws hw
    rw [C86_names] at hk
    have hmem : topPick L train ∈ (ws.map fun w => (w.1, realized w.2 test)).map Prod.fst := by
      rw [List.map_map]
      have : (Prod.fst ∘ fun w : String × Option (Fin p → ℝ) => (w.1, realized w.2 test)) = Prod.fst := rfl
      rw [this, hk]
      exact topPick_mem L train
    show (match (ws.map fun w => (w.1, realized w.2 test)).lookup (topPick L train) with | none => _ | some v => _) = _
    cases hl : (ws.map fun w => (w.1, realized w.2 test)).lookup (topPick L train) with
    | none =>
      exfalso
      rw [List.lookup_eq_none_iff] at hl
      obtain ⟨e, he, hee⟩ := List.mem_map.1 hmem
      have := hl e he
      simp [hee] at this
    | some v =>
      show _ = Except.ok _
      rw [hl, List.map_map]
      rfl

/-- C88: no look-ahead. If two data sets agree on the rows before the end of a window's training period, the window fails on one
iff it fails on the other (with the same error), uses the same portfolio weights for every estimator and makes the same
recommendation; only the rows of the test period decide the reported variances. -/
theorem C88_no_lookahead (R R' : List (Fin p → ℝ)) (trainLen testLen t : ℕ) (h : R.take (t + trainLen) = R'.take (t + trainLen)) :
    (∀ e, rollAt L R trainLen testLen t = .error e ↔ rollAt L R' trainLen testLen t = .error e) ∧
    ∀ r r', rollAt L R trainLen testLen t = .ok r → rollAt L R' trainLen testLen t = .ok r' →
      r.pick = r'.pick ∧ ∃ ws : List (String × Option (Fin p → ℝ)), ws.map Prod.fst = estimatorNames ∧
        r.this = ws.map (fun w => (w.1, realized w.2 (slice R (t + trainLen) (t + trainLen + testLen)))) ∧
        r'.this = ws.map (fun w => (w.1, realized w.2 (slice R' (t + trainLen) (t + trainLen + testLen)))) := by
  have ht : slice R t (t + trainLen) = slice R' t (t + trainLen) := by unfold slice; rw [h]
  rw [rollAt_eq L R, rollAt_eq L R', ht]
  cases hw : weightsOf L (slice R' t (t + trainLen)) (outOfBox L p) with
  | error e => exact ⟨fun _ => Iff.rfl, fun r r' hr => by cases hr⟩
  | ok ws =>
    refine ⟨fun e => ?_, fun r r' hr hr' => ?_⟩
    · exact ⟨(fun h => nomatch h), (fun h => nomatch h)⟩
    cases hr; cases hr'
    exact ⟨rfl, ws, by rw [weightsOf_keys L _ _ ws hw, C86_names], rfl, rfl⟩

/-- C88: rows appended later change no window that was already complete. -/
theorem C88_past_is_past (R S : List (Fin p → ℝ)) (trainLen testLen t : ℕ) (h : t + trainLen + testLen ≤ R.length) :
    rollAt L (R ++ S) trainLen testLen t = rollAt L R trainLen testLen t := by
  have e1 : slice (R ++ S) t (t + trainLen) = slice R t (t + trainLen) := by
    unfold slice; rw [List.take_append_of_le_length (by omega)]
  have e2 : slice (R ++ S) (t + trainLen) (t + trainLen + testLen) = slice R (t + trainLen) (t + trainLen + testLen) := by
    unfold slice; rw [List.take_append_of_le_length (by omega)]
  rw [rollAt_eq, rollAt_eq, e1, e2]


/-! ## The portfolio -/

theorem gmvNum_sum (cov : Matrix (Fin p) (Fin p) ℝ) (w : Fin p → ℝ) (h : gmvNum L cov = some w) : ∑ i, w i = 1 := by
  unfold gmvNum at h
  simp only [] at h
  split at h
  · cases h
  · rename_i h0
    cases h
    rw [← Finset.sum_div, div_self h0]

/-- C88: the weights sum to one; for a PSD estimate they are missing (NaN) exactly when its (pseudo-)inverse sends the vector of
ones to zero; for a positive-definite estimate they exist and are the portfolio of least variance under the estimate. -/
theorem C88_weights (cov : Matrix (Fin p) (Fin p) ℝ) :
    (∀ w, gmvNum L cov = some w → ∑ i, w i = 1) ∧
    (PSD cov → (gmvNum L cov = none ↔ tryInvert L cov *ᵥ 1 = 0)) ∧
    (1 ≤ p → PD cov → ∃ w, gmvNum L cov = some w ∧ ∀ v : Fin p → ℝ, ∑ i, v i = 1 → quad cov w ≤ quad cov v) := by
  refine ⟨fun w h => gmvNum_sum L cov w h, fun h => ?_, fun hp h => ?_⟩
  · have hq : ∑ j, (tryInvert L cov *ᵥ 1) j = quad (tryInvert L cov) 1 := by
      rw [quad, dotProduct]; simp
    rw [← (tryInvert_psd L h).quad_eq_zero_iff, ← hq]
    unfold gmvNum
    simp only []
    constructor
    · intro hh; by_contra hc; rw [if_neg hc] at hh; cases hh
    · intro hh; rw [if_pos hh]
  · have h1 := (gmv_cov_mul L h hp).1
    refine ⟨gmvWeights L cov, ?_, fun v hv => (gmv_optimal L h hp v hv).1⟩
    unfold gmvNum
    simp only []
    rw [tryInvert_of_pd L h, if_neg h1.ne']
    unfold gmvWeights
    rw [tryInvert_of_pd L h]

/-! ## Aggregates -/

theorem rolls_ok (R : List (Fin p → ℝ)) (trainLen testLen : ℕ) (ts : List ℕ) (rs : List Roll) (h : rolls L R trainLen testLen ts = .ok rs) :
    List.Forall₂ (fun t r => rollAt L R trainLen testLen t = .ok r) ts rs := by
  induction ts generalizing rs with
  | nil => cases h; exact .nil
  | cons t ts ih =>
    unfold rolls at h
    cases h1 : rollAt L R trainLen testLen t with
    | error e => rw [h1] at h; cases h
    | ok r =>
      rw [h1] at h
      simp only [] at h
      cases h2 : rolls L R trainLen testLen ts with
      | error e => rw [h2] at h; cases h
      | ok rs' => rw [h2] at h; cases h; exact .cons h1 (ih rs' h2)

theorem rollAt_fields (R : List (Fin p → ℝ)) (trainLen testLen t : ℕ) (r : Roll) (h : rollAt L R trainLen testLen t = .ok r) :
    r.this.map Prod.fst = estimatorNames ∧ r.pick = topPick L (slice R t (t + trainLen)) ∧
    r.this.lookup r.pick = some r.recommended ∧ r.oracle = pyMin (r.this.map Prod.snd) ∧
    r.equal = realized (some fun _ => 1 / (p : ℝ)) (slice R (t + trainLen) (t + trainLen + testLen)) := by
  unfold rollAt at h
  simp only [] at h
  rw [scoreAll_eq] at h
  cases hw : weightsOf L (slice R t (t + trainLen)) (outOfBox L p) with
  | error e => rw [hw] at h; cases h
  | ok ws =>
    rw [hw] at h
    have hk := weightsOf_keys L _ _ ws hw
    rw [C86_names] at hk
    simp only [Except.map] at h
    cases hl : (ws.map fun w => (w.1, realized w.2 (slice R (t + trainLen) (t + trainLen + testLen)))).lookup (topPick L (slice R t (t + trainLen))) with
    | none => rw [hl] at h; cases h
    | some v =>
      rw [hl] at h; cases h
      refine ⟨?_, rfl, hl, rfl, rfl⟩
      rw [List.map_map]; exact hk

theorem pyMin_spec (l : List (Option ℝ)) (o : ℝ) (h : pyMin l = some o) : some o ∈ l ∧ ∀ b, some b ∈ l → o ≤ b := by
  cases l with
  | nil => cases h
  | cons x xs =>
    have key : ∀ (xs : List (Option ℝ)) (m : Option ℝ) (o : ℝ), xs.foldl (fun m y => match m, y with
        | some a, some b => if b < a then some b else some a
        | m, _ => m) m = some o →
        (some o = m ∨ some o ∈ xs) ∧ (∃ a, m = some a ∧ o ≤ a) ∧ ∀ b, some b ∈ xs → o ≤ b := by
      intro xs
      induction xs with
      | nil => intro m o h; exact ⟨Or.inl h.symm, ⟨o, h, le_rfl⟩, by simp⟩
      | cons y ys ih =>
        intro m o h
        rw [List.foldl_cons] at h
        obtain ⟨h1, ⟨a, h2, h3⟩, h4⟩ := ih _ o h
        cases m with
        | none => simp at h2
        | some m =>
          cases y with
          | none =>
            simp only [] at h1 h2
            cases h2
            exact ⟨h1.imp id (by simp), ⟨_, rfl, h3⟩, by simpa using h4⟩
          | some y =>
            simp only [] at h1 h2
            split at h2 <;> rename_i hlt
            · cases h2
              rw [if_pos hlt] at h1
              refine ⟨Or.inr ?_, ⟨m, rfl, by linarith⟩, ?_⟩
              · rcases h1 with h1 | h1
                · rw [h1]; simp
                · simp [h1]
              · intro b hb
                rcases List.mem_cons.1 hb with hb | hb
                · cases hb; exact h3
                · exact h4 b hb
            · cases h2
              rw [if_neg hlt] at h1
              refine ⟨h1.imp id (by intro h; simp [h]), ⟨_, rfl, h3⟩, ?_⟩
              intro b hb
              rcases List.mem_cons.1 hb with hb | hb
              · cases hb; linarith
              · exact h4 b hb
    obtain ⟨h1, ⟨a, h2, h3⟩, h4⟩ := key xs x o h
    refine ⟨?_, fun b hb => ?_⟩
    · rcases h1 with h1 | h1
      · rw [h1]; simp
      · simp [h1]
    · rcases List.mem_cons.1 hb with hb | hb
      · rw [h2] at hb; cases hb; exact h3
      · exact h4 b hb

/-- A mean is a number exactly when the list is not empty and all its elements are numbers. -/
theorem meanNum_some (v : List (Option ℝ)) (m : ℝ) (h : meanNum v = some m) :
    ∃ a : List ℝ, a ≠ [] ∧ v = a.map some ∧ m = a.sum / a.length := by
  have key : ∀ (v : List (Option ℝ)) (s : ℝ),
      v.foldr addNum (some 0) = some s →
      ∃ a : List ℝ, v = a.map some ∧ s = a.sum := by
    intro v
    induction v with
    | nil => intro s h; cases h; exact ⟨[], rfl, by simp⟩
    | cons x v ih =>
      intro s h
      rw [List.foldr_cons] at h
      cases hv : v.foldr addNum (some 0) with
      | none => rw [hv] at h; cases x <;> cases h
      | some b =>
        rw [hv] at h
        cases x with
        | none => cases h
        | some x =>
          cases h
          obtain ⟨a, rfl, rfl⟩ := ih b hv
          exact ⟨x :: a, by simp, by simp⟩
  unfold meanNum at h
  by_cases hv : v = []
  · rw [if_pos hv] at h; cases h
  · rw [if_neg hv] at h
    cases hf : v.foldr addNum (some 0) with
    | none => rw [hf] at h; cases h
    | some s =>
      rw [hf] at h
      obtain ⟨a, rfl, rfl⟩ := key v s hf
      rw [List.length_map] at h
      refine ⟨a, ?_, rfl, (Option.some.inj h).symm⟩
      rintro rfl; exact hv rfl

theorem annvol_mono {α : Type} (l : List α) (f g : α → Option ℝ) (hfg : ∀ x ∈ l, ∀ a b, f x = some a → g x = some b → a ≤ b) (a b : ℝ)
    (ha : annvol (l.map f) = some a) (hb : annvol (l.map g) = some b) : a ≤ b := by
  unfold annvol at ha hb
  cases hf : meanNum (l.map f) with
  | none => rw [hf] at ha; cases ha
  | some mf =>
  cases hg : meanNum (l.map g) with
  | none => rw [hg] at hb; cases hb
  | some mg =>
    rw [hf] at ha; rw [hg] at hb; cases ha; cases hb
    obtain ⟨u, -, hu, rfl⟩ := meanNum_some _ _ hf
    obtain ⟨v, -, hv, rfl⟩ := meanNum_some _ _ hg
    have hlu : u.length = l.length := by have := congrArg List.length hu; simpa using this.symm
    have hlv : v.length = l.length := by have := congrArg List.length hv; simpa using this.symm
    have hsum : u.sum ≤ v.sum := by
      clear hf hg hlu hlv
      induction l generalizing u v with
      | nil =>
        have : u = [] := by simpa using hu.symm
        have : v = [] := by simpa using hv.symm
        subst_vars; simp
      | cons x l ih =>
        cases u with
        | nil => simp at hu
        | cons a u =>
          cases v with
          | nil => simp at hv
          | cons b v =>
            simp only [List.map_cons, List.cons.injEq] at hu hv
            rw [List.sum_cons, List.sum_cons]
            exact add_le_add (hfg x (by simp) a b hu.1 hv.1) (ih (fun y hy => hfg y (by simp [hy])) u hu.2 v hv.2)
    rw [hlu, hlv]
    exact Real.sqrt_le_sqrt (by
      have : u.sum / (l.length : ℝ) ≤ v.sum / (l.length : ℝ) := div_le_div_of_nonneg_right hsum (Nat.cast_nonneg _)
      linarith)

/-- What a completed study is made of. -/
theorem rollingOos_ok (R : List (Fin p → ℝ)) (trainLen testLen step : ℕ) (r : Rolling) (h : rollingOos L R trainLen testLen step = .ok r) :
    ∃ ts rs, rollStarts R.length trainLen testLen step = .ok ts ∧ List.Forall₂ (fun t r => rollAt L R trainLen testLen t = .ok r) ts rs ∧
      r = { fixed := estimatorNames.map fun k => (k, annvol (rs.map fun r => (r.this.lookup k).getD none))
            recommender := annvol (rs.map Roll.recommended)
            oracle := annvol (rs.map Roll.oracle)
            equalWeight := annvol (rs.map Roll.equal)
            counts := (rs.map Roll.pick).foldl bump [] } := by
  unfold rollingOos at h
  cases hs : rollStarts R.length trainLen testLen step with
  | error e => rw [hs] at h; cases h
  | ok ts =>
    rw [hs] at h
    simp only [] at h
    cases hr : rolls L R trainLen testLen ts with
    | error e => rw [hr] at h; cases h
    | ok rs =>
      rw [hr] at h; cases h
      refine ⟨ts, rs, rfl, rolls_ok L R _ _ ts rs hr, ?_⟩
      rw [← C86_names L (p := p), List.map_map]
      rfl

theorem lookup_mem {β : Type} (l : List (String × β)) (k : String) (v : β) (h : l.lookup k = some v) : (k, v) ∈ l := by
  induction l with
  | nil => cases h
  | cons e l ih =>
    obtain ⟨a, b⟩ := e
    rw [List.lookup_cons] at h
    by_cases hk : k = a
    · subst hk; simp at h; subst h; simp
    · have : (k == a) = false := by simpa using hk
      rw [this] at h
      exact List.mem_cons_of_mem _ (ih h)

theorem forall₂_right {α β : Type} {P : α → β → Prop} {l : List α} {m : List β} (h : List.Forall₂ P l m) : ∀ b ∈ m, ∃ a ∈ l, P a b := by
  induction h with
  | nil => simp
  | cons h _ ih =>
    intro b hb
    rcases List.mem_cons.1 hb with rfl | hb
    · exact ⟨_, by simp, h⟩
    · obtain ⟨a, ha, h⟩ := ih b hb; exact ⟨a, by simp [ha], h⟩

/-- C88: the volatilities are labelled by the 17 registered names, and the oracle is a lower bound: when no NaN occurs, its
volatility is at most that of every fixed estimator and at most the recommender's. -/
theorem C88_oracle (R : List (Fin p → ℝ)) (trainLen testLen step : ℕ) (r : Rolling) (h : rollingOos L R trainLen testLen step = .ok r) :
    r.fixed.map Prod.fst = estimatorNames ∧
    ∀ o, r.oracle = some o → (∀ k v, (k, some v) ∈ r.fixed → o ≤ v) ∧ (∀ x, r.recommender = some x → o ≤ x) := by
  obtain ⟨ts, rs, hs, hf, rfl⟩ := rollingOos_ok L R trainLen testLen step r h
  have hw : ∀ w ∈ rs, w.oracle = pyMin (w.this.map Prod.snd) ∧ w.this.lookup w.pick = some w.recommended := by
    intro w hw
    obtain ⟨t, -, ht⟩ := forall₂_right hf w hw
    obtain ⟨-, -, h2, h3, -⟩ := rollAt_fields L R trainLen testLen t w ht
    exact ⟨h3, h2⟩
  refine ⟨by simp [Function.comp_def], fun o ho => ⟨fun k v hk => ?_, fun x hx => ?_⟩⟩
  · obtain ⟨k', -, hk'⟩ := List.mem_map.1 hk
    obtain ⟨rfl, hv⟩ := Prod.mk.inj hk'
    refine annvol_mono rs Roll.oracle _ (fun w hwm a b ha hb => ?_) o v ho hv
    rw [(hw w hwm).1] at ha
    refine (pyMin_spec _ a ha).2 b ?_
    cases hl : w.this.lookup k' with
    | none => rw [hl] at hb; cases hb
    | some z =>
      rw [hl] at hb
      simp only [Option.getD_some] at hb
      subst hb
      exact List.mem_map.2 ⟨_, lookup_mem _ _ _ hl, rfl⟩
  · refine annvol_mono rs Roll.oracle Roll.recommended (fun w hwm a b ha hb => ?_) o x ho hx
    rw [(hw w hwm).1] at ha
    refine (pyMin_spec _ a ha).2 b ?_
    have := (hw w hwm).2
    rw [hb] at this
    exact List.mem_map.2 ⟨_, lookup_mem _ _ _ this, rfl⟩

/-! ## The volatilities -/

namespace Study

/-- Mean squared daily return of the portfolio `w` over the days `test`. -/
noncomputable def meanSqReturn {p : ℕ} (w : Fin p → ℝ) (test : List (Fin p → ℝ)) : ℝ := (test.map fun x => (∑ i, w i * x i) ^ 2).sum / test.length

end Study

open Study

theorem weightsOf_lookup (train : List (Fin p → ℝ)) (l : List (String × (List (Call (Fin p) ℝ) → Except PyErr (Matrix (Fin p) (Fin p) ℝ))))
    (hn : (l.map Prod.fst).Nodup) (ws) (h : weightsOf L train l = .ok ws) (k : String) (f) (hf : (k, f) ∈ l) :
    ∃ cov, f [.fit (.batch train)] = .ok cov ∧ ws.lookup k = some (gmvNum L cov) := by
  induction l generalizing ws with
  | nil => cases hf
  | cons e l ih =>
    obtain ⟨n, g⟩ := e
    unfold weightsOf at h
    cases hg : g [.fit (.batch train)] with
    | error e => rw [hg] at h; cases h
    | ok cov =>
      rw [hg] at h
      simp only [] at h
      cases hw : weightsOf L train l with
      | error e => rw [hw] at h; cases h
      | ok ws' =>
        rw [hw] at h; cases h
        rw [List.map_cons, List.nodup_cons] at hn
        rcases List.mem_cons.1 hf with h1 | h1
        · cases h1; exact ⟨cov, hg, by simp [List.lookup]⟩
        · obtain ⟨c, h2, h3⟩ := ih hn.2 ws' hw h1
          refine ⟨c, h2, ?_⟩
          have hne : k ≠ n := by
            rintro rfl
            exact hn.1 (List.mem_map.2 ⟨_, h1, rfl⟩)
          simp only [List.lookup, beq_eq_false_iff_ne.2 hne]
          exact h3

theorem realized_some (w : Option (Fin p → ℝ)) (test : List (Fin p → ℝ)) (a : ℝ) (h : realized w test = some a) :
    ∃ v, w = some v ∧ a = meanSqReturn v test ∧ 0 ≤ a ∧ test ≠ [] := by
  cases w with
  | none => cases h
  | some v =>
    unfold realized at h
    simp only [] at h
    split at h
    · cases h
    · rename_i hne
      cases h
      refine ⟨v, rfl, ?_, ?_, hne⟩
      · unfold meanSqReturn
        congr 2
        refine List.map_congr_left fun x _ => ?_
        rw [dotProduct]
        congr 1
        exact Finset.sum_congr rfl fun i _ => mul_comm _ _
      · refine div_nonneg (List.sum_nonneg ?_) (Nat.cast_nonneg _)
        simp only [List.mem_map]
        rintro _ ⟨x, -, rfl⟩; positivity

theorem annvol_sq {α β : Type} {P : α → β → Prop} {ts : List α} {rs : List β} (hf : List.Forall₂ P ts rs) (f : β → Option ℝ) (g : α → ℝ)
    (hg : ∀ t r, P t r → ∀ a, f r = some a → a = g t ∧ 0 ≤ a) (v : ℝ) (hv : annvol (rs.map f) = some v) :
    0 ≤ v ∧ v ^ 2 * ts.length = 252 * (ts.map g).sum ∧ ∀ r ∈ rs, ∃ a, f r = some a := by
  unfold annvol at hv
  cases hm : meanNum (rs.map f) with
  | none => rw [hm] at hv; cases hv
  | some m =>
    rw [hm] at hv; cases hv
    obtain ⟨a, ha, hu, rfl⟩ := meanNum_some _ _ hm
    have key : a.sum = (ts.map g).sum ∧ 0 ≤ a.sum ∧ a.length = ts.length ∧ ∀ r ∈ rs, ∃ a, f r = some a := by
      clear hm ha
      induction hf generalizing a with
      | nil => have : a = [] := by simpa using hu.symm
               subst this; simp
      | cons h _ ih =>
        cases a with
        | nil => simp at hu
        | cons x a =>
          simp only [List.map_cons, List.cons.injEq] at hu
          obtain ⟨i1, i2, i3, i4⟩ := ih a hu.2
          obtain ⟨j1, j2⟩ := hg _ _ h x hu.1
          refine ⟨by rw [List.map_cons, List.sum_cons, List.sum_cons, i1, j1], by rw [List.sum_cons]; linarith, by simp [i3], ?_⟩
          intro r hr
          rcases List.mem_cons.1 hr with rfl | hr
          · exact ⟨x, hu.1⟩
          · exact i4 r hr
    obtain ⟨k1, k2, k3, k4⟩ := key
    have hl : (0:ℝ) < a.length := by exact_mod_cast List.length_pos_iff.2 ha
    refine ⟨Real.sqrt_nonneg _, ?_, k4⟩
    rw [Real.sq_sqrt (mul_nonneg (by norm_num) (div_nonneg k2 hl.le)), ← k1, ← k3]
    field_simp

/-- C88: what the volatilities are: the square is 252 times the mean over the windows of the mean squared return, over the test days, of the
minimum-variance portfolio of the estimator's covariance after `fit` on the training days; for `equal_weight` of the portfolio `1/p`. -/
theorem C88_volatility (R : List (Fin p → ℝ)) (trainLen testLen step : ℕ) (r : Rolling) (h : rollingOos L R trainLen testLen step = .ok r) :
    ∃ ts, rollStarts R.length trainLen testLen step = .ok ts ∧
      (∀ k f v, (k, f) ∈ outOfBox L p → (k, some v) ∈ r.fixed → 0 ≤ v ∧ ∃ W : ℕ → Fin p → ℝ,
        (∀ t ∈ ts, ∃ cov, f [.fit (.batch (slice R t (t + trainLen)))] = .ok cov ∧ gmvNum L cov = some (W t)) ∧
        v ^ 2 * ts.length = 252 * (ts.map fun t => meanSqReturn (W t) (slice R (t + trainLen) (t + trainLen + testLen))).sum) ∧
      (∀ v, r.equalWeight = some v → 0 ≤ v ∧
        v ^ 2 * ts.length = 252 * (ts.map fun t => meanSqReturn (fun _ => 1 / (p : ℝ)) (slice R (t + trainLen) (t + trainLen + testLen))).sum) := by
  obtain ⟨ts, rs, hs, hf, rfl⟩ := rollingOos_ok L R trainLen testLen step r h
  have hnd : ((outOfBox L p).map Prod.fst).Nodup := by rw [C86_names]; decide
  refine ⟨ts, hs, fun k f v hk hv => ?_, fun v hv => ?_⟩
  · obtain ⟨k', -, hk'⟩ := List.mem_map.1 hv
    obtain ⟨rfl, hv'⟩ := Prod.mk.inj hk'
    let wt : ℕ → Option (Fin p → ℝ) := fun t => match f [.fit (.batch (slice R t (t + trainLen)))] with
      | .error _ => none
      | .ok cov => gmvNum L cov
    have step1 : ∀ t w, rollAt L R trainLen testLen t = .ok w → (∃ cov, f [.fit (.batch (slice R t (t + trainLen)))] = .ok cov ∧ wt t = gmvNum L cov) ∧
        (w.this.lookup k').getD none = realized (wt t) (slice R (t + trainLen) (t + trainLen + testLen)) := by
      intro t w hw
      rw [rollAt_eq] at hw
      cases hws : weightsOf L (slice R t (t + trainLen)) (outOfBox L p) with
      | error e => rw [hws] at hw; cases hw
      | ok ws =>
        rw [hws] at hw
        cases hw
        obtain ⟨cov, c1, c2⟩ := weightsOf_lookup L _ _ hnd ws hws k' f hk
        have hwt : wt t = gmvNum L cov := by simp only [wt, c1]
        refine ⟨⟨cov, c1, hwt⟩, ?_⟩
        have hl : (ws.map fun w => (w.1, realized w.2 (slice R (t + trainLen) (t + trainLen + testLen)))).lookup k' =
            some (realized (gmvNum L cov) (slice R (t + trainLen) (t + trainLen + testLen))) := by
          clear hws
          induction ws with
          | nil => cases c2
          | cons e ws ih =>
            by_cases he : k' = e.1
            · obtain ⟨n, u⟩ := e
              simp only at he; subst he
              simp [List.lookup] at c2 ⊢
              rw [c2]
            · simp only [List.map_cons, List.lookup, beq_eq_false_iff_ne.2 he] at c2 ⊢
              exact ih c2
        rw [hl, hwt]; rfl
    obtain ⟨h1, h2, h3⟩ := annvol_sq hf (fun w => (w.this.lookup k').getD none)
      (fun t => meanSqReturn ((wt t).getD 0) (slice R (t + trainLen) (t + trainLen + testLen))) (fun t w hw a ha => by
        rw [(step1 t w hw).2] at ha
        obtain ⟨u, e1, e2, e3, -⟩ := realized_some _ _ _ ha
        rw [e1]; exact ⟨e2, e3⟩) v hv'
    refine ⟨h1, fun t => (wt t).getD 0, fun t ht => ?_, h2⟩
    have : ∃ w ∈ rs, rollAt L R trainLen testLen t = .ok w := by
      clear h2 h3 hv hv' hk' h hs
      induction hf with
      | nil => cases ht
      | cons ha _ ih =>
        rcases List.mem_cons.1 ht with rfl | ht
        · exact ⟨_, by simp, ha⟩
        · obtain ⟨w, hw, e⟩ := ih ht; exact ⟨w, by simp [hw], e⟩
    obtain ⟨w, hw, hwt⟩ := this
    obtain ⟨a, ha⟩ := h3 w hw
    obtain ⟨⟨cov, c1, c2⟩, c3⟩ := step1 t w hwt
    simp only [c3] at ha
    obtain ⟨u, e1, -, -, -⟩ := realized_some _ _ _ ha
    exact ⟨cov, c1, by rw [← c2]; show _ = some ((wt t).getD 0); rw [e1]; rfl⟩
  · obtain ⟨h1, h2, -⟩ := annvol_sq hf Roll.equal (fun t => meanSqReturn (fun _ => 1 / (p : ℝ)) (slice R (t + trainLen) (t + trainLen + testLen)))
      (fun t w hw a ha => by
        rw [(rollAt_fields L R trainLen testLen t w hw).2.2.2.2] at ha
        obtain ⟨u, e1, e2, e3, -⟩ := realized_some _ _ _ ha
        cases e1; exact ⟨e2, e3⟩) v hv
    exact ⟨h1, h2⟩

/-- C88: the rank in the report, when no NaN occurs: first exactly when no fixed estimator has a strictly lower volatility (ties count for the
recommender), and never more than one past the number of fixed estimators that are strictly better. -/
theorem C88_rank (r : Rolling) (x : ℝ) (hx : r.recommender = some x) :
    (recRank r = 1 ↔ ∀ k v, (k, some v) ∈ r.fixed → x ≤ v) ∧
    (∀ k, (k, r.recommender) ∈ r.fixed → recRank r ≤ r.fixed.length) ∧
    recRank r = 1 + r.fixed.countP fun e => match e.2 with | some v => decide (v < x) | none => false := by
  have hc : recRank r = 1 + r.fixed.countP fun e => match e.2 with | some v => decide (v < x) | none => false := by
    unfold recRank
    rw [← List.countP_eq_length_filter, hx]
    congr 2
    funext e
    cases e.2 <;> rfl
  refine ⟨?_, fun k hk => ?_, hc⟩
  · rw [hc, Nat.add_eq_left, List.countP_eq_zero]
    constructor
    · intro h k v hv
      have := h _ hv
      simpa using this
    · intro h e he
      obtain ⟨k, w⟩ := e
      cases w with
      | none => simp
      | some v => simpa using h k v he
  · rw [hc]
    have : r.fixed.countP (fun e => match e.2 with | some v => decide (v < x) | none => false) < r.fixed.length := by
      rw [List.countP_lt_length_iff]
      exact ⟨_, hk, by rw [hx]; simp⟩
    omega

/-! ## The counts -/

theorem bump_keys (c : List (String × ℕ)) (k : String) : ∀ x, x ∈ (bump c k).map Prod.fst ↔ x ∈ c.map Prod.fst ∨ x = k := by
  intro x
  induction c with
  | nil => simp [bump]
  | cons e c ih =>
    obtain ⟨k', n⟩ := e
    unfold bump
    by_cases h : k' = k
    · rw [if_pos h]; simp only [List.map_cons, List.mem_cons]
      subst h; tauto
    · rw [if_neg h]; simp only [List.map_cons, List.mem_cons]
      rw [ih]; tauto

theorem bump_nodup (c : List (String × ℕ)) (k : String) (h : (c.map Prod.fst).Nodup) : ((bump c k).map Prod.fst).Nodup := by
  induction c with
  | nil => simp [bump]
  | cons e c ih =>
    obtain ⟨k', n⟩ := e
    rw [List.map_cons, List.nodup_cons] at h
    unfold bump
    by_cases hk : k' = k
    · rw [if_pos hk, List.map_cons, List.nodup_cons]; exact h
    · rw [if_neg hk, List.map_cons, List.nodup_cons]
      refine ⟨fun hm => ?_, ih h.2⟩
      rcases (bump_keys c k _).1 hm with hm | hm
      · exact h.1 hm
      · exact hk hm

theorem bump_mem (c : List (String × ℕ)) (k : String) (hn : (c.map Prod.fst).Nodup) (x : String) (m : ℕ) :
    (x, m) ∈ bump c k ↔ if x = k then (∃ n, (k, n) ∈ c ∧ m = n + 1) ∨ (k ∉ c.map Prod.fst ∧ m = 1) else (x, m) ∈ c := by
  induction c with
  | nil =>
    unfold bump
    by_cases h : x = k
    · subst h; simp
    · simp [h]
  | cons e c ih =>
    obtain ⟨k', n⟩ := e
    rw [List.map_cons, List.nodup_cons] at hn
    unfold bump
    by_cases hk : k' = k
    · subst hk
      rw [if_pos rfl]
      by_cases hx : x = k'
      · subst hx
        rw [if_pos rfl]
        constructor
        · intro h
          rcases List.mem_cons.1 h with h | h
          · cases h; exact Or.inl ⟨n, by simp, rfl⟩
          · exact absurd (List.mem_map.2 ⟨_, h, rfl⟩) hn.1
        · rintro (⟨n', h, rfl⟩ | ⟨h, -⟩)
          · rcases List.mem_cons.1 h with h | h
            · cases h; simp
            · exact absurd (List.mem_map.2 ⟨_, h, rfl⟩) hn.1
          · simp at h
      · rw [if_neg hx]
        simp [hx]
    · rw [if_neg hk, List.mem_cons, ih hn.2]
      by_cases hx : x = k
      · subst hx
        rw [if_pos rfl, if_pos rfl]
        simp [Ne.symm hk]
      · rw [if_neg hx, if_neg hx, List.mem_cons]

theorem foldl_bump (l : List String) (c : List (String × ℕ)) (seen : List String) (hn : (c.map Prod.fst).Nodup)
    (hc : ∀ x m, (x, m) ∈ c ↔ x ∈ seen ∧ m = seen.count x) :
    ((l.foldl bump c).map Prod.fst).Nodup ∧ ∀ x m, (x, m) ∈ l.foldl bump c ↔ x ∈ seen ++ l ∧ m = (seen ++ l).count x := by
  induction l generalizing c seen with
  | nil => simpa using ⟨hn, hc⟩
  | cons a l ih =>
    rw [List.foldl_cons]
    have := ih (bump c a) (seen ++ [a]) (bump_nodup c a hn) (fun x m => by
      rw [bump_mem c a hn]
      by_cases hx : x = a
      · subst hx
        rw [if_pos rfl, List.count_append]
        have hkeys : x ∈ c.map Prod.fst ↔ x ∈ seen := by
          constructor
          · intro h; obtain ⟨⟨y, n⟩, h1, rfl⟩ := List.mem_map.1 h; exact ((hc _ _).1 h1).1
          · intro h; exact List.mem_map.2 ⟨(x, seen.count x), (hc _ _).2 ⟨h, rfl⟩, rfl⟩
        rw [hkeys]
        simp only [hc, List.mem_append, List.mem_singleton, or_true, true_and, List.count_singleton_self]
        by_cases hs : x ∈ seen
        · simp [hs]
        · have : seen.count x = 0 := List.count_eq_zero.2 hs
          simp [hs, this]
      · rw [if_neg hx, hc, List.count_append]
        have : List.count x [a] = 0 := List.count_eq_zero.2 (by simpa using hx)
        simp [hx, this])
    rw [List.append_assoc] at this
    exact this

/-- C88: `counts` has one entry for each class ever recommended, with the number of windows where it was: only
LedoitWolfCovariance and EmpiricalCovariance can occur, and the numbers add up to the number of windows. -/
theorem C88_counts (R : List (Fin p → ℝ)) (trainLen testLen step : ℕ) (r : Rolling) (h : rollingOos L R trainLen testLen step = .ok r) :
    ∃ ts, rollStarts R.length trainLen testLen step = .ok ts ∧ (r.counts.map Prod.fst).Nodup ∧
      (∀ k m, (k, m) ∈ r.counts ↔ 0 < m ∧ m = (ts.filter fun t => topPick L (slice R t (t + trainLen)) = k).length) ∧
      (∀ k m, (k, m) ∈ r.counts → k = "LedoitWolfCovariance" ∨ k = "EmpiricalCovariance") ∧
      (r.counts.map Prod.snd).sum = ts.length := by
  obtain ⟨ts, rs, hs, hf, rfl⟩ := rollingOos_ok L R trainLen testLen step r h
  have hp : rs.map Roll.pick = ts.map fun t => topPick L (slice R t (t + trainLen)) := by
    clear hs h
    induction hf with
    | nil => rfl
    | cons h1 _ ih => rw [List.map_cons, List.map_cons, ih, (rollAt_fields L R trainLen testLen _ _ h1).2.1]
  have key := foldl_bump (rs.map Roll.pick) [] [] (by simp) (by simp)
  simp only [List.nil_append] at key
  rw [hp] at key
  have hmem : ∀ k m, (k, m) ∈ (ts.map fun t => topPick L (slice R t (t + trainLen))).foldl bump [] ↔
      0 < m ∧ m = (ts.filter fun t => topPick L (slice R t (t + trainLen)) = k).length := by
    intro k m
    have hcnt : (ts.map fun t => topPick L (slice R t (t + trainLen))).count k = (ts.filter fun t => topPick L (slice R t (t + trainLen)) = k).length := by
      rw [List.count, List.countP_map, List.countP_eq_length_filter]
      congr 2
    rw [key.2, hcnt, ← List.count_pos_iff, hcnt]
    constructor
    · rintro ⟨h1, rfl⟩; exact ⟨h1, rfl⟩
    · rintro ⟨h1, rfl⟩; exact ⟨h1, rfl⟩
  refine ⟨ts, hs, by rw [hp]; exact key.1, by rw [hp]; exact hmem, ?_, ?_⟩
  · intro k m hk
    rw [hp] at hk
    obtain ⟨h0, h1⟩ := (hmem k m).1 hk
    rw [h1] at h0
    obtain ⟨t, ht⟩ := List.exists_mem_of_length_pos h0
    have := (List.mem_filter.1 ht).2
    simp only [decide_eq_true_eq] at this
    rw [← this]
    exact (C87_two_picks L _).1
  · rw [hp]
    have hsum : ∀ (l : List String) (c : List (String × ℕ)), ((l.foldl bump c).map Prod.snd).sum = (c.map Prod.snd).sum + l.length := by
      intro l
      have hb : ∀ (c : List (String × ℕ)) k, ((bump c k).map Prod.snd).sum = (c.map Prod.snd).sum + 1 := by
        intro c k
        induction c with
        | nil => rfl
        | cons e c ih =>
          obtain ⟨k', n⟩ := e
          unfold bump
          split
          · simp only [List.map_cons, List.sum_cons]; omega
          · simp only [List.map_cons, List.sum_cons]; omega
      induction l with
      | nil => intro c; simp
      | cons a l ih => intro c; rw [List.foldl_cons, ih, hb, List.length_cons]; omega
    rw [hsum]; simp

/-! ## Findings -/

theorem slice_length (R : List (Fin p → ℝ)) (a b : ℕ) (h : b ≤ R.length) : (slice R a b).length = b - a := by
  unfold slice; rw [List.length_drop, List.length_take]; omega

/-- C88 (finding): with fewer than four training days per variable (the published study has 60 for 49) the recommender is the fixed
estimator LedoitWolfCovariance: its reported volatility is that entry of `fixed`, so it never beats the best fixed estimator,
and `counts` has no other entry. -/
theorem C88_recommender_is_ledoit_wolf (R : List (Fin p → ℝ)) (trainLen testLen step : ℕ) (h0 : 0 < trainLen) (h4 : trainLen < 4 * p)
    (r : Rolling) (h : rollingOos L R trainLen testLen step = .ok r) :
    ("LedoitWolfCovariance", r.recommender) ∈ r.fixed ∧
    ∀ k m, (k, m) ∈ r.counts → k = "LedoitWolfCovariance" := by
  obtain ⟨ts', hs', -, hmem, -, -⟩ := C88_counts L R trainLen testLen step r h
  obtain ⟨ts, rs, hs, hf, rfl⟩ := rollingOos_ok L R trainLen testLen step r h
  rw [hs] at hs'
  obtain rfl : ts' = ts := (Except.ok.inj hs').symm
  have hstep : 0 < step := by
    rcases Nat.eq_zero_or_pos step with rfl | h
    · rw [(C88_windows _ _ _ 0).1 rfl] at hs; cases hs
    · exact h
  have hpick : ∀ t ∈ ts', topPick L (slice R t (t + trainLen)) = "LedoitWolfCovariance" := by
    intro t ht
    obtain ⟨ts'', hs'', -, hm⟩ := (C88_windows R.length trainLen testLen step).2 hstep
    rw [hs] at hs''
    obtain rfl : ts'' = ts' := (Except.ok.inj hs'').symm
    have h2 := ((hm t).1 ht).2
    have hl := slice_length R t (t + trainLen) (by omega)
    refine C87_high_dimension L _ ?_ (by rw [hl]; omega)
    rw [← List.length_pos_iff, hl]; omega
  refine ⟨?_, fun k m hk => ?_⟩
  · refine List.mem_map.2 ⟨"LedoitWolfCovariance", by decide, ?_⟩
    congr 2
    refine List.map_congr_left fun w hw => ?_
    obtain ⟨t, ht, hr⟩ := forall₂_right hf w hw
    obtain ⟨-, h1, h2, -, -⟩ := rollAt_fields L R trainLen testLen t w hr
    rw [hpick t ht] at h1
    rw [h1] at h2
    rw [h2, Option.getD_some]
  · obtain ⟨hm0, hm⟩ := (hmem k m).1 hk
    rw [hm] at hm0
    obtain ⟨t, ht⟩ := List.exists_mem_of_length_pos hm0
    have h1 := List.mem_filter.1 ht
    have h2 := h1.2
    simp only [decide_eq_true_eq] at h2
    rw [← h2]
    exact hpick t h1.1

/-- C88 (finding): with too few rows for one window the study reports NaN everywhere, an empty `counts`, and ranks the recommender
first. -/
theorem C88_no_window (R : List (Fin p → ℝ)) (trainLen testLen step : ℕ) (hs : 0 < step) (h : R.length < trainLen + testLen) :
    ∃ r, rollingOos L R trainLen testLen step = .ok r ∧ r.fixed = estimatorNames.map (fun k => (k, none)) ∧ r.recommender = none ∧
      r.oracle = none ∧ r.equalWeight = none ∧ r.counts = [] ∧ recRank r = 1 := by
  have ht : rollStarts R.length trainLen testLen step = .ok [] := by
    obtain ⟨ts, h1, -, h2⟩ := (C88_windows R.length trainLen testLen step).2 hs
    rw [h1]
    congr 1
    refine List.eq_nil_iff_forall_not_mem.2 fun t ht => ?_
    have := ((h2 t).1 ht).2
    omega
  have hm : annvol [] = none := by unfold annvol meanNum; rw [if_pos rfl]; rfl
  refine ⟨{ fixed := estimatorNames.map (fun k => (k, none)), recommender := none, oracle := none, equalWeight := none, counts := [] }, ?_, rfl, rfl, rfl, rfl, rfl, rfl⟩
  unfold rollingOos
  rw [ht]
  show Except.ok _ = _
  congr 1

/-! ## Completion -/

/-- C88: an error in one window ends the study with that error; with at least one training row the only possible one is the
LinAlgError of SchurConditionalCovariance. -/
theorem C88_errors (R : List (Fin p → ℝ)) (trainLen testLen step : ℕ) (h0 : 0 < trainLen) (hs : 0 < step) (e : PyErr)
    (h : rollingOos L R trainLen testLen step = .error e) : e = .linAlgError := by
  obtain ⟨ts, h1, -, h2⟩ := (C88_windows R.length trainLen testLen step).2 hs
  have hrow : ∀ t ∈ ts, ∀ e, rollAt L R trainLen testLen t = .error e → e = .linAlgError := by
    intro t ht e he
    rw [rollAt_eq] at he
    have hl := slice_length R t (t + trainLen) (by have := ((h2 t).1 ht).2; omega)
    have hne : slice R t (t + trainLen) ≠ [] := by rw [← List.length_pos_iff, hl]; omega
    have key : ∀ l : List (String × (List (Call (Fin p) ℝ) → Except PyErr (Matrix (Fin p) (Fin p) ℝ))), (∀ x ∈ l, x ∈ outOfBox L p) →
        ∀ e, weightsOf L (slice R t (t + trainLen)) l = .error e → e = .linAlgError := by
      intro l
      induction l with
      | nil => intro _ e h; cases h
      | cons x l ih =>
        intro hx e h
        obtain ⟨n, f⟩ := x
        unfold weightsOf at h
        have hav := (C86_available L [Call.fit (.batch (slice R t (t + trainLen)))] (n, f) (hx _ (by simp))).2 (by
          simp [rowsSinceFit, rowsOf, hne])
        rcases hav with ⟨c, hc⟩ | ⟨-, hc⟩
        · simp only [] at hc
          rw [hc] at h
          simp only [] at h
          cases hw : weightsOf L (slice R t (t + trainLen)) l with
          | error e' => rw [hw] at h; cases h; exact ih (fun x hx' => hx x (by simp [hx'])) _ hw
          | ok ws => rw [hw] at h; cases h
        · simp only [] at hc
          rw [hc] at h; cases h; rfl
    cases hw : weightsOf L (slice R t (t + trainLen)) (outOfBox L p) with
    | error e' => rw [hw] at he; cases he; exact key _ (fun _ h => h) _ hw
    | ok ws => rw [hw] at he; cases he
  unfold rollingOos at h
  rw [h1] at h
  simp only [] at h
  cases hr : rolls L R trainLen testLen ts with
  | ok rs => rw [hr] at h; cases h
  | error e' =>
    rw [hr] at h; cases h
    clear h1 h2
    induction ts with
    | nil => cases hr
    | cons t ts ih =>
      unfold rolls at hr
      cases hx : rollAt L R trainLen testLen t with
      | error e => rw [hx] at hr; cases hr; exact hrow t (by simp) _ hx
      | ok w =>
        rw [hx] at hr
        simp only [] at hr
        cases hy : rolls L R trainLen testLen ts with
        | error e => rw [hy] at hr; cases hr; exact ih (fun t ht => hrow t (by simp [ht])) hy
        | ok rs => rw [hy] at hr; cases hr

/-- C88: the study completes when SchurConditionalCovariance can be read after every training window; in particular always for one
variable. -/
theorem C88_completes (R : List (Fin p → ℝ)) (trainLen testLen step : ℕ) (h0 : 0 < trainLen) (hs : 0 < step)
    (h : p = 1 ∨ ∀ t, step ∣ t → t + trainLen + testLen ≤ R.length →
      scCovariance? L ((new (schurCondCls L p) (⟨1 / 20, 4, false⟩ : BlockParam)).run [.fit (.batch (slice R t (t + trainLen)))]) ≠ .error .linAlgError) :
    ∃ r, rollingOos L R trainLen testLen step = .ok r := by
  obtain ⟨ts, h1, -, h2⟩ := (C88_windows R.length trainLen testLen step).2 hs
  have hrow : ∀ t ∈ ts, ∃ w, rollAt L R trainLen testLen t = .ok w := by
    intro t ht
    have hm := (h2 t).1 ht
    have hl := slice_length R t (t + trainLen) (by omega)
    have hne : slice R t (t + trainLen) ≠ [] := by rw [← List.length_pos_iff, hl]; omega
    have hu : rowsSinceFit [Call.fit (.batch (slice R t (t + trainLen)))] [] ≠ [] := by simp [rowsSinceFit, rowsOf, hne]
    have hsc : scCovariance? L ((new (schurCondCls L p) (⟨1 / 20, 4, false⟩ : BlockParam)).run [.fit (.batch (slice R t (t + trainLen)))]) ≠ .error .linAlgError := by
      rcases h with rfl | h
      · have hr : ∃ R', ((new (ewaCls (Fin 1) ℝ) ⟨1 / 20, false⟩).run [.fit (.batch (slice R t (t + trainLen)))]).correlation = .ok R' := by
          obtain ⟨c, hc⟩ : ∃ c, ((new (ewaCls (Fin 1) ℝ) (⟨1 / 20, false⟩ : RParam ℝ)).run [.fit (.batch (slice R t (t + trainLen)))]).covariance = .ok c :=
            ⟨_, (ewa_attrs (⟨1 / 20, false⟩ : RParam ℝ) _ (by simpa [used, effective] using hu)).2⟩
          exact ⟨_, by unfold Obj.correlation; rw [hc]; rfl⟩
        obtain ⟨R', hR'⟩ := hr
        intro he
        obtain ⟨b, hb, -⟩ := (C32_error_iff L le_rfl (⟨1 / 20, 4, false⟩ : BlockParam) _ R' hR').1.1 he
        have : (slices 1 (nbClamped 4 1)).tail = [] := by decide
        simp only [] at hb
        rw [this] at hb
        cases hb
      · exact h t hm.1 hm.2
    have key : ∀ l : List (String × (List (Call (Fin p) ℝ) → Except PyErr (Matrix (Fin p) (Fin p) ℝ))),
        (∀ x ∈ l, ∃ c, x.2 [.fit (.batch (slice R t (t + trainLen)))] = .ok c) →
        ∃ ws, weightsOf L (slice R t (t + trainLen)) l = .ok ws := by
      intro l
      induction l with
      | nil => intro _; exact ⟨[], rfl⟩
      | cons x l ih =>
        intro hx
        obtain ⟨n, f⟩ := x
        obtain ⟨c, hc⟩ := hx (n, f) (by simp)
        obtain ⟨ws, hw⟩ := ih fun x h => hx x (by simp [h])
        simp only [] at hc
        unfold weightsOf
        rw [hc]
        simp only []
        rw [hw]
        exact ⟨_, rfl⟩
    obtain ⟨ws, hw⟩ := key (outOfBox L p) fun x hx => by
      rcases (C86_available L [Call.fit (.batch (slice R t (t + trainLen)))] x hx).2 hu with hc | ⟨hn, hc⟩
      · exact hc
      · exfalso
        obtain ⟨n, f⟩ := x
        simp only [] at hn hc
        subst hn
        have hf : f = fun c => scCovariance? L ((new (schurCondCls L p) (⟨1 / 20, 4, false⟩ : BlockParam)).run c) := by
          simpa [outOfBox] using hx
        rw [hf] at hc
        exact hsc hc
    rw [rollAt_eq, hw]
    exact ⟨_, rfl⟩
  have hrs : ∃ rs, rolls L R trainLen testLen ts = .ok rs := by
    clear h1 h2
    induction ts with
    | nil => exact ⟨[], rfl⟩
    | cons t ts ih =>
      obtain ⟨w, hw⟩ := hrow t (by simp)
      obtain ⟨rs, hr⟩ := ih fun t ht => hrow t (by simp [ht])
      unfold rolls
      rw [hw]
      simp only []
      rw [hr]
      exact ⟨_, rfl⟩
  obtain ⟨rs, hr⟩ := hrs
  unfold rollingOos
  rw [h1]
  simp only []
  rw [hr]
  exact ⟨_, rfl⟩

/-! ## Concrete cases -/

section Examples

/-- five days of one asset: three training days, one test day -/
def demo : List (Fin 1 → ℝ) := [![1], ![2], ![0], ![1], ![3]]

-- the study completes on it (hypothesis of `C88_oracle`, `C88_counts`), with two windows, and the third finding applies (3 < 4)
example : ∃ r, rollingOos L demo 3 1 1 = .ok r := C88_completes L demo 3 1 1 (by norm_num) (by norm_num) (Or.inl rfl)
example : rollStarts demo.length 3 1 1 = .ok [0, 1] := by decide
example : ∃ r, rollingOos L demo 3 1 1 = .ok r ∧ ("LedoitWolfCovariance", r.recommender) ∈ r.fixed := by
  obtain ⟨r, hr⟩ := C88_completes L demo 3 1 1 (by norm_num) (by norm_num) (Or.inl rfl)
  exact ⟨r, hr, (C88_recommender_is_ledoit_wolf L demo 3 1 1 (by norm_num) (by norm_num) r hr).1⟩
-- the hypothesis of `C88_no_window`
example : demo.length < 4 + 2 := by decide

end Examples

end Precise.Oos
