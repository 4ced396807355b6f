import Verif.Model.Legacy
import Mathlib.Tactic
import Mathlib.Algebra.Order.Floor.Semifield

/-!
# C109: Elo ratings, battles, managers and rankings of the legacy evaluation code
-/

set_option linter.all false

namespace Precise.Legacy

/-! ## Elo formulas -/

/-- The expected score is a probability and the two players' expectations add up to one, also beyond the cutoff. -/
theorem C109_expected (d f : ℝ) : 0 ≤ eloExpected d f ∧ eloExpected d f ≤ 1 ∧ eloExpected d f + eloExpected (-d) f = 1 := by
  have hp : (0:ℝ) < (10:ℝ) ^ (d / f) := Real.rpow_pos_of_pos (by norm_num) _
  have hneg : -d / f = -(d / f) := by ring
  have hinv : (10:ℝ) ^ (-(d/f)) = ((10:ℝ) ^ (d/f))⁻¹ := Real.rpow_neg (by norm_num) _
  refine ⟨?_, ?_, ?_⟩
  · unfold eloExpected; split_ifs <;> positivity
  · unfold eloExpected
    split_ifs
    · norm_num
    · norm_num
    · rw [div_le_one (by positivity)]; linarith
  · unfold eloExpected
    rw [hneg, hinv]
    split_ifs <;> first | linarith | (exfalso; linarith) | skip
    field_simp
    ring

/-- The further the opponent is ahead, the smaller the expected score. -/
theorem C109_expected_antitone {f : ℝ} (hf : 0 < f) : Antitone fun d => eloExpected d f := by
  intro a b hab
  have hq : a / f ≤ b / f := by gcongr
  have hp : (10:ℝ) ^ (a / f) ≤ (10:ℝ) ^ (b / f) := Real.rpow_le_rpow_of_exponent_le (by norm_num) hq
  have ha : (0:ℝ) < (10:ℝ) ^ (a / f) := Real.rpow_pos_of_pos (by norm_num) _
  have hb1 := C109_expected b f
  have ha1 := C109_expected a f
  simp only
  by_cases h1 : b / f > 8
  · have : eloExpected b f = 0 := by unfold eloExpected; rw [if_pos h1]
    rw [this]; exact ha1.1
  by_cases h2 : a / f < -8
  · have : eloExpected a f = 1 := by unfold eloExpected; rw [if_neg (by linarith), if_pos h2]
    rw [this]; exact hb1.2.1
  unfold eloExpected
  rw [if_neg h1, if_neg (by linarith), if_neg (by linarith), if_neg h2]
  gcongr

/-- The expected score is the logistic curve within 8 factors and exactly 0 or 1 outside, so it jumps by
`1/(1+10^8)` at the cutoff. -/
theorem C109_expected_value {f : ℝ} (hf : 0 < f) (d : ℝ) :
    (d > 8 * f → eloExpected d f = 0) ∧ (d < -(8 * f) → eloExpected d f = 1) ∧
    (|d| ≤ 8 * f → eloExpected d f = 1 / (1 + (10:ℝ) ^ (d / f)) ∧ 1 / (1 + 10 ^ 8) ≤ eloExpected d f) ∧
    (eloExpected d f = 0 ↔ d > 8 * f) ∧ eloExpected 0 f = 1 / 2 := by
  have h8 : (d / f > 8) ↔ d > 8 * f := by rw [gt_iff_lt, lt_div_iff₀ hf]
  have h8' : (d / f < -8) ↔ d < -(8 * f) := by rw [div_lt_iff₀ hf, neg_mul]
  refine ⟨fun h => ?_, fun h => ?_, fun h => ?_, ⟨fun h => ?_, fun h => ?_⟩, ?_⟩
  · unfold eloExpected; rw [if_pos (h8.2 h)]
  · unfold eloExpected
    rw [if_neg (by rw [h8]; nlinarith), if_pos (h8'.2 h)]
  · have h1 := abs_le.1 h
    have e : eloExpected d f = 1 / (1 + (10:ℝ) ^ (d / f)) := by
      unfold eloExpected
      rw [if_neg (by rw [h8]; linarith [h1.2]), if_neg (by rw [h8']; linarith [h1.1])]
    refine ⟨e, ?_⟩
    rw [e]
    have hp : (0:ℝ) < (10:ℝ) ^ (d / f) := Real.rpow_pos_of_pos (by norm_num) _
    have hle : (10:ℝ) ^ (d / f) ≤ 10 ^ 8 := by
      have : (10:ℝ) ^ (d / f) ≤ (10:ℝ) ^ (8:ℝ) := Real.rpow_le_rpow_of_exponent_le (by norm_num) (by rw [div_le_iff₀ hf]; exact h1.2)
      calc _ ≤ _ := this
        _ = 10 ^ 8 := by rw [show (8:ℝ) = ((8:ℕ):ℝ) by norm_num, Real.rpow_natCast]
    gcongr
  · by_contra hc
    have hc' : ¬ d / f > 8 := fun h' => hc (h8.1 h')
    unfold eloExpected at h
    rw [if_neg hc'] at h
    split_ifs at h
    · norm_num at h
    · have hp : (0:ℝ) < (10:ℝ) ^ (d / f) := Real.rpow_pos_of_pos (by norm_num) _
      have : 1 / (1 + (10:ℝ) ^ (d / f)) > 0 := by positivity
      linarith
  · unfold eloExpected; rw [if_pos (h8.2 h)]
  · unfold eloExpected; norm_num

/-- A match moves the same amount from the loser to the winner, between 0 and `k`; nothing moves exactly when the winner
was more than 8 factors ahead. -/
theorem C109_change {f k : ℝ} (hf : 0 < f) (hk : 0 < k) (white black : ℝ) :
    (∀ points, (eloChange white black points k f).1 + (eloChange white black points k f).2 = 0) ∧
    0 ≤ (eloChange white black 1 k f).1 ∧ (eloChange white black 1 k f).1 ≤ k ∧
    ((eloChange white black 1 k f).1 = 0 ↔ white > black + 8 * f) ∧
    (white = black → (eloChange white black 1 k f).1 = k / 2) := by
  obtain ⟨h0, h1, h2⟩ := C109_expected (black - white) f
  have h3 := C109_expected (-(black - white)) f
  have hz := (C109_expected_value hf (-(black - white))).2.2.2.1
  simp only [eloChange]
  refine ⟨fun p => by ring, by nlinarith, by nlinarith, ⟨fun h => ?_, fun h => ?_⟩, fun h => ?_⟩
  · have : 1 - eloExpected (black - white) f = 0 := by
      rcases mul_eq_zero.1 h with h | h
      · linarith
      · exact h
    have := hz.1 (by linarith)
    linarith
  · have := hz.2 (by linarith)
    have : 1 - eloExpected (black - white) f = 0 := by linarith
    rw [this]; ring
  · have := (C109_expected_value hf 0).2.2.2.2
    rw [h, sub_self, this]; ring

/-- The gain of a winner does not grow with his lead. -/
theorem C109_change_upset {f k : ℝ} (hf : 0 < f) (hk : 0 ≤ k) {lead lead' : ℝ} (h : lead ≤ lead') (black : ℝ) :
    (eloChange (black + lead') black 1 k f).1 ≤ (eloChange (black + lead) black 1 k f).1 := by
  have := C109_expected_antitone hf (show -lead' ≤ -lead by linarith)
  simp only [eloChange]
  have e1 : black - (black + lead') = -lead' := by ring
  have e2 : black - (black + lead) = -lead := by ring
  rw [e1, e2]
  exact mul_le_mul_of_nonneg_left (by simp only at this; linarith) hk

/-! ## Keys -/

theorem splitGt_ne_nil (s : Name) : splitGt s ≠ [] := by
  induction s with
  | nil => simp [splitGt]
  | cons c cs ih =>
    unfold splitGt
    split_ifs
    · simp
    · split <;> simp

theorem splitGt_plain {s : Name} (h : '>' ∉ s) : splitGt s = [s] := by
  induction s with
  | nil => rfl
  | cons c cs ih =>
    have hc : c ≠ '>' := fun hc => h (by simp [hc])
    have := ih (fun hm => h (by simp [hm]))
    unfold splitGt
    rw [if_neg hc, this]

theorem splitGt_append {s t : Name} (h : '>' ∉ s) : splitGt (s ++ '>' :: t) = s :: splitGt t := by
  induction s with
  | nil => simp [splitGt]
  | cons c cs ih =>
    have hc : c ≠ '>' := fun hc => h (by simp [hc])
    have := ih (fun hm => h (by simp [hm]))
    rw [List.cons_append, splitGt, if_neg hc, this]

theorem splitGt_length (s : Name) : (splitGt s).length = s.count '>' + 1 := by
  induction s with
  | nil => rfl
  | cons c cs ih =>
    rw [splitGt]
    split_ifs with hc
    · simp [hc, ih]
    · rw [List.count_cons_of_ne hc]
      cases h : splitGt cs with
      | nil => exact absurd h (splitGt_ne_nil _)
      | cons p ps => rw [← ih, h]; simp

/-- The key written for a result is read back as the two names exactly when neither name contains `>`. -/
theorem C109_key (i j : Name) : splitGt (cmpName i j) = [i, j] ↔ ('>' ∉ i ∧ '>' ∉ j) := by
  constructor
  · intro h
    have hl := splitGt_length (cmpName i j)
    rw [h] at hl
    simp only [cmpName, List.count_append, List.count_cons_self, List.length_cons, List.length_nil] at hl
    exact ⟨List.count_eq_zero.1 (by omega), List.count_eq_zero.1 (by omega)⟩
  · rintro ⟨hi, hj⟩
    rw [cmpName, splitGt_append hi, splitGt_plain hj]

/-! ## Ratings from results -/

/-- The names of the first and second part of a key. -/
def Spec.winner (key : Name) : Name := (splitGt key).headD []
def Spec.loser (key : Name) : Name := (splitGt key).tail.headD []

/-- How often the results in `ctn` say that `c` won (lost). -/
noncomputable def Spec.wins (ctn : Wins) (c : Name) : ℝ := (ctn.map fun kc => if Spec.winner kc.1 = c then kc.2 else 0).sum
noncomputable def Spec.losses (ctn : Wins) (c : Name) : ℝ := (ctn.map fun kc => if Spec.loser kc.1 = c then kc.2 else 0).sum

/-- The number of whole matches recorded in `ctn`. -/
noncomputable def Spec.whole (ctn : Wins) : ℕ := (ctn.map fun kc => ⌊kc.2⌋₊).sum

theorem eloLoop_inv {k : ℝ} {pick : ℕ → ℕ} {I : Wins → (Name → ℝ) → Prop}
    (step : ∀ ctn elo key c w l, (key, c) ∈ ctn → 1 ≤ c → splitGt key = [w, l] → I ctn elo →
      I (useUp ctn key) (applyMatch k elo w l)) :
    ∀ (fuel : ℕ) (ctn : Wins) (elo : Name → ℝ) (r : Wins × (Name → ℝ)), I ctn elo → eloLoop k pick fuel ctn elo = .ok r →
      I r.1 r.2 := by
  intro fuel
  induction fuel with
  | zero => intro ctn elo r hI h; simp only [eloLoop, Except.ok.injEq] at h; subst h; exact hI
  | succ n ih =>
    intro ctn elo r hI h
    unfold eloLoop at h
    split at h
    · simp only [Except.ok.injEq] at h; subst h; exact hI
    · rename_i kc hkc
      have hmem : kc ∈ remaining ctn := List.mem_of_getElem? hkc
      simp only [remaining, List.mem_filter, decide_eq_true_eq] at hmem
      split at h
      · rename_i w l hs
        exact ih _ _ _ (step ctn elo kc.1 kc.2 w l hmem.1 hmem.2 hs hI) h
      · simp at h

theorem useUp_keys (ctn : Wins) (key : Name) : (useUp ctn key).map Prod.fst = ctn.map Prod.fst := by
  unfold useUp
  rw [List.map_map]
  apply List.map_congr_left
  intro kc _
  simp only [Function.comp]
  split_ifs <;> rfl

theorem secondParts_mem {ks : List Name} {sec : List Name} (h : secondParts ks = .ok sec) {key w l : Name} (hk : key ∈ ks)
    (hs : splitGt key = [w, l]) : l ∈ sec := by
  induction ks generalizing sec with
  | nil => simp at hk
  | cons a ks ih =>
    unfold secondParts at h
    cases ha : splitGt a with
    | nil => rw [ha] at h; simp at h
    | cons p ps =>
      cases ps with
      | nil => rw [ha] at h; simp at h
      | cons b bs =>
        rw [ha] at h
        simp only at h
        cases hr : secondParts ks with
        | error e => rw [hr] at h; cases h
        | ok sec' =>
          rw [hr] at h
          have hsec : sec = b :: sec' := by cases h; rfl
          subst hsec
          rcases List.mem_cons.1 hk with rfl | hk
          · rw [ha] at hs
            simp only [List.cons.injEq] at hs
            simp [hs.2.1]
          · exact List.mem_cons_of_mem _ (ih hr hk)

theorem contestants_mem {ctn : Wins} {cs : List Name} (h : contestants ctn = .ok cs) :
    cs.Nodup ∧ ∀ key w l, key ∈ ctn.map Prod.fst → splitGt key = [w, l] → w ∈ cs ∧ l ∈ cs := by
  unfold contestants at h
  cases hr : secondParts (ctn.map Prod.fst) with
  | error e => rw [hr] at h; cases h
  | ok sec =>
    rw [hr] at h
    have hcs : cs = ((ctn.map fun kc => (splitGt kc.1).headD []) ++ sec).dedup := by cases h; rfl
    subst hcs
    refine ⟨List.nodup_dedup _, fun key w l hk hs => ?_⟩
    simp only [List.mem_dedup, List.mem_append]
    refine ⟨Or.inl ?_, Or.inr (secondParts_mem hr hk hs)⟩
    obtain ⟨kc, hkc, rfl⟩ := List.mem_map.1 hk
    exact List.mem_map.2 ⟨kc, hkc, by rw [hs]; rfl⟩

theorem sum_applyMatch {k : ℝ} (elo : Name → ℝ) {w l : Name} {cs : List Name} (hn : cs.Nodup) (hw : w ∈ cs) (hl : l ∈ cs) :
    (cs.map (applyMatch k elo w l)).sum = (cs.map elo).sum := by
  have hsum : ∀ g : Name → ℝ, (cs.map g).sum = ∑ c ∈ cs.toFinset, g c := fun g => by
    rw [List.sum_toFinset _ hn]
  rw [hsum, hsum]
  have hw' : w ∈ cs.toFinset := by simpa using hw
  have hl' : l ∈ cs.toFinset := by simpa using hl
  have key : ∀ (g : Name → ℝ) (a : Name) (δ : ℝ), a ∈ cs.toFinset →
      ∑ c ∈ cs.toFinset, Function.update g a (g a + δ) c = ∑ c ∈ cs.toFinset, g c + δ := by
    intro g a δ ha
    rw [← Finset.add_sum_erase _ _ ha, ← Finset.add_sum_erase _ g ha, Function.update_self]
    have : ∑ c ∈ cs.toFinset.erase a, Function.update g a (g a + δ) c = ∑ c ∈ cs.toFinset.erase a, g c :=
      Finset.sum_congr rfl fun c hc => by rw [Function.update_of_ne (Finset.ne_of_mem_erase hc)]
    rw [this]; ring
  unfold applyMatch
  rw [key _ _ _ hl', key _ _ _ hw']
  simp only [eloChange]
  ring

theorem eloFrom_ok {k : ℝ} {pick : ℕ → ℕ} {ctn : Wins} {cs : List Name} {elo : Name → ℝ} {after : Wins}
    (h : eloFromWinCounts k pick ctn = .ok (cs, elo, after)) :
    contestants ctn = .ok cs ∧ eloLoop k pick ELO_LIMIT ctn (fun c => if c ∈ cs then 1500 else 0) = .ok (after, elo) := by
  unfold eloFromWinCounts at h
  cases hc : contestants ctn with
  | error e => rw [hc] at h; cases h
  | ok cs' =>
    rw [hc] at h
    simp only [bind, Except.bind] at h
    cases hl : eloLoop k pick ELO_LIMIT ctn (fun c => if c ∈ cs' then 1500 else 0) with
    | error e => rw [hl] at h; cases h
    | ok r =>
      rw [hl] at h
      obtain ⟨a, e⟩ := r
      simp only [pure, Except.pure, Except.ok.injEq, Prod.mk.injEq] at h
      obtain ⟨rfl, rfl, rfl⟩ := h
      exact ⟨rfl, hl⟩

/-- Whatever the results and the order in which they are drawn, the ratings add up to 1500 per contestant. -/
theorem C109_total {k : ℝ} {pick : ℕ → ℕ} {ctn : Wins} {cs : List Name} {elo : Name → ℝ} {after : Wins}
    (h : eloFromWinCounts k pick ctn = .ok (cs, elo, after)) : (cs.map elo).sum = 1500 * (cs.length : ℝ) := by
  obtain ⟨hc, hl⟩ := eloFrom_ok h
  obtain ⟨hn, hmem⟩ := contestants_mem hc
  have := eloLoop_inv (k := k) (pick := pick)
    (I := fun c e => c.map Prod.fst = ctn.map Prod.fst ∧ (cs.map e).sum = 1500 * (cs.length : ℝ))
    (by
      intro c e key v w l hin _ hs ⟨h1, h2⟩
      have hkey : key ∈ ctn.map Prod.fst := by rw [← h1]; exact List.mem_map.2 ⟨_, hin, rfl⟩
      obtain ⟨hw, hl⟩ := hmem key w l hkey hs
      exact ⟨by rw [useUp_keys, h1], by rw [sum_applyMatch e hn hw hl, h2]⟩)
    ELO_LIMIT ctn _ (after, elo)
    ⟨rfl, by
      rw [List.map_congr_left (g := fun _ => (1500:ℝ)) (fun c hc => by rw [if_pos hc])]
      rw [List.map_const', List.sum_replicate, nsmul_eq_mul, mul_comm]⟩ hl
  exact this.2

/-! ### Matches played -/

theorem whole_useUp {ctn : Wins} (hn : (ctn.map Prod.fst).Nodup) {key : Name} {c : ℝ} (hin : (key, c) ∈ ctn) (hc : 1 ≤ c) :
    Spec.whole (useUp ctn key) + 1 = Spec.whole ctn := by
  induction ctn with
  | nil => simp at hin
  | cons a t ih =>
    simp only [List.map_cons, List.nodup_cons] at hn
    have hstep : useUp (a :: t) key = (if a.1 = key then (a.1, a.2 - 1) else a) :: useUp t key := rfl
    rw [hstep]
    rcases List.mem_cons.1 hin with rfl | hin
    · have hno : useUp t key = t := by
        unfold useUp
        conv_rhs => rw [← List.map_id t]
        apply List.map_congr_left
        intro kc hkc
        rw [if_neg]; · rfl
        intro e; exact hn.1 (List.mem_map.2 ⟨kc, hkc, e⟩)
      rw [hno]
      simp only [if_true, Spec.whole, List.map_cons, List.sum_cons]
      have : ⌊c - 1⌋₊ + 1 = ⌊c⌋₊ := by
        have h1 : 1 ≤ ⌊c⌋₊ := Nat.one_le_floor_iff _ |>.2 hc
        rw [Nat.floor_sub_one]; omega
      omega
    · have hne : a.1 ≠ key := fun e => hn.1 (List.mem_map.2 ⟨_, hin, e.symm⟩)
      have := ih hn.2 hin
      rw [if_neg hne]
      simp only [Spec.whole, List.map_cons, List.sum_cons] at this ⊢
      omega

theorem remaining_nil_iff (ctn : Wins) : remaining ctn = [] ↔ Spec.whole ctn = 0 := by
  unfold remaining Spec.whole
  rw [List.filter_eq_nil_iff, List.sum_eq_zero_iff]
  constructor
  · intro h n hn
    obtain ⟨kc, hkc, rfl⟩ := List.mem_map.1 hn
    have := h kc hkc
    simp only [decide_eq_true_eq, not_le] at this
    exact Nat.floor_eq_zero.2 this
  · intro h kc hkc
    have := h _ (List.mem_map.2 ⟨kc, hkc, rfl⟩)
    simpa using Nat.floor_eq_zero.1 this

theorem getElem_mod_none {α : Type} (l : List α) (n : ℕ) : l[n % l.length]? = none ↔ l = [] := by
  rw [List.getElem?_eq_none_iff]
  constructor
  · intro h
    by_contra hne
    have := Nat.mod_lt n (List.length_pos_iff.2 hne)
    omega
  · rintro rfl; simp

/-- The fuel of the loop counts matches: it stops after `min fuel whole` of them. -/
theorem eloLoop_whole {k : ℝ} {pick : ℕ → ℕ} :
    ∀ (fuel : ℕ) (ctn : Wins) (elo : Name → ℝ) (r : Wins × (Name → ℝ)), (ctn.map Prod.fst).Nodup →
      eloLoop k pick fuel ctn elo = .ok r → Spec.whole r.1 = Spec.whole ctn - fuel := by
  intro fuel
  induction fuel with
  | zero => intro ctn elo r _ h; simp only [eloLoop, Except.ok.injEq] at h; subst h; rfl
  | succ n ih =>
    intro ctn elo r hn h
    unfold eloLoop at h
    split at h
    · rename_i hnone
      have := (remaining_nil_iff ctn).1 ((getElem_mod_none _ _).1 hnone)
      simp only [Except.ok.injEq] at h; subst h
      simp only; omega
    · rename_i kc hkc
      have hmem : kc ∈ remaining ctn := List.mem_of_getElem? hkc
      simp only [remaining, List.mem_filter, decide_eq_true_eq] at hmem
      split at h
      · have h1 := ih _ _ _ (by rw [useUp_keys]; exact hn) h
        have h2 := whole_useUp hn (key := kc.1) (c := kc.2) hmem.1 hmem.2
        omega
      · simp at h

theorem sum_useUp {ctn : Wins} (hn : (ctn.map Prod.fst).Nodup) {key : Name} {c : ℝ} (hin : (key, c) ∈ ctn) (g : Name → ℝ) :
    ((useUp ctn key).map fun kc => g kc.1 * kc.2).sum = (ctn.map fun kc => g kc.1 * kc.2).sum - g key := by
  induction ctn with
  | nil => simp at hin
  | cons a t ih =>
    simp only [List.map_cons, List.nodup_cons] at hn
    have hstep : useUp (a :: t) key = (if a.1 = key then (a.1, a.2 - 1) else a) :: useUp t key := rfl
    rw [hstep]
    rcases List.mem_cons.1 hin with rfl | hin
    · have hno : useUp t key = t := by
        unfold useUp
        conv_rhs => rw [← List.map_id t]
        apply List.map_congr_left
        intro kc hkc
        rw [if_neg]; · rfl
        intro e; exact hn.1 (List.mem_map.2 ⟨kc, hkc, e⟩)
      rw [hno]
      simp only [if_true, List.map_cons, List.sum_cons]
      ring
    · have hne : a.1 ≠ key := fun e => hn.1 (List.mem_map.2 ⟨_, hin, e.symm⟩)
      have := ih hn.2 hin
      rw [if_neg hne]
      simp only [List.map_cons, List.sum_cons, this]
      ring

theorem counts_sum (ctn : Wins) : (ctn.map Prod.snd).sum = (ctn.map fun kc => (fun _ => (1:ℝ)) kc.1 * kc.2).sum := by
  simp

/-- The number of matches played is the number of whole matches in the counter, but at most 50000; the caller's counter is
reduced by exactly that, a fraction of a match is never played, and no count is lowered below what it had after its whole
matches. -/
theorem C109_matches {k : ℝ} {pick : ℕ → ℕ} {ctn : Wins} {cs : List Name} {elo : Name → ℝ} {after : Wins}
    (hn : (ctn.map Prod.fst).Nodup) (h : eloFromWinCounts k pick ctn = .ok (cs, elo, after)) :
    after.map Prod.fst = ctn.map Prod.fst ∧
    (ctn.map Prod.snd).sum - (after.map Prod.snd).sum = (min 50000 (Spec.whole ctn) : ℕ) ∧
    ∀ kc ∈ after, ∃ c, (kc.1, c) ∈ ctn ∧ ∃ m : ℕ, m ≤ ⌊c⌋₊ ∧ kc.2 = c - m := by
  obtain ⟨hc, hl⟩ := eloFrom_ok h
  have hw := eloLoop_whole ELO_LIMIT ctn _ _ hn hl
  have := eloLoop_inv (k := k) (pick := pick)
    (I := fun c _ => c.map Prod.fst = ctn.map Prod.fst ∧
      (ctn.map Prod.snd).sum - (c.map Prod.snd).sum = (Spec.whole ctn : ℝ) - Spec.whole c ∧
      ∀ kc ∈ c, ∃ c0, (kc.1, c0) ∈ ctn ∧ ∃ m : ℕ, m ≤ ⌊c0⌋₊ ∧ kc.2 = c0 - m)
    (by
      intro c e key v w l hin hv hs ⟨h1, h2, h3⟩
      have hn' : (c.map Prod.fst).Nodup := by rw [h1]; exact hn
      refine ⟨by rw [useUp_keys, h1], ?_, ?_⟩
      · have ha := whole_useUp hn' hin hv
        have hb := sum_useUp hn' hin (fun _ => 1)
        rw [← counts_sum, ← counts_sum] at hb
        rw [hb]
        have : (Spec.whole c : ℝ) = Spec.whole (useUp c key) + 1 := by rw [← ha]; push_cast; rfl
        rw [this] at h2
        linarith
      · intro kc hkc
        obtain ⟨kc0, hkc0, rfl⟩ := List.mem_map.1 hkc
        obtain ⟨c0, hc0, m, hm, e⟩ := h3 kc0 hkc0
        by_cases hk : kc0.1 = key
        · have hkv : kc0.2 = v := by
            have : kc0 = (key, v) := List.inj_on_of_nodup_map hn' hkc0 hin hk
            rw [this]
          rw [if_pos hk]
          refine ⟨c0, hc0, m + 1, ?_, by simp only; rw [e]; push_cast; ring⟩
          have : (m:ℝ) + 1 ≤ c0 := by linarith
          exact Nat.le_floor (by push_cast; linarith)
        · simp only [hk, if_false]
          exact ⟨c0, hc0, m, hm, e⟩)
    ELO_LIMIT ctn _ (after, elo)
    ⟨rfl, by simp, fun kc hkc => ⟨kc.2, hkc, 0, Nat.zero_le _, by simp⟩⟩ hl
  obtain ⟨h1, h2, h3⟩ := this
  refine ⟨h1, ?_, h3⟩
  rw [h2, hw]
  have hlim : ELO_LIMIT = 50000 := rfl
  rw [hlim]
  rw [sub_eq_iff_eq_add]
  rw [← Nat.cast_add, Nat.cast_inj]
  omega

/-- Calling it a second time on the same counter gives every contestant 1500: the first call has used up the results. -/
theorem C109_second_call {k : ℝ} {pick pick' : ℕ → ℕ} {ctn : Wins} {cs : List Name} {elo : Name → ℝ} {after : Wins}
    (hn : (ctn.map Prod.fst).Nodup) (hlim : Spec.whole ctn ≤ 50000)
    (h : eloFromWinCounts k pick ctn = .ok (cs, elo, after)) :
    ∃ elo', eloFromWinCounts k pick' after = .ok (cs, elo', after) ∧ ∀ c ∈ cs, elo' c = 1500 := by
  obtain ⟨hc, hl⟩ := eloFrom_ok h
  have hw := eloLoop_whole ELO_LIMIT ctn _ _ hn hl
  have hw0 : Spec.whole after = 0 := by
    rw [hw]; have : ELO_LIMIT = 50000 := rfl
    omega
  have hk := (C109_matches hn h).1
  have hcs : contestants after = .ok cs := by
    rw [← hc]
    unfold contestants
    rw [hk]
    have : (after.map fun kc => (splitGt kc.1).headD []) = (ctn.map fun kc => (splitGt kc.1).headD []) := by
      have e : ∀ l : Wins, (l.map fun kc => (splitGt kc.1).headD []) = (l.map Prod.fst).map fun k => (splitGt k).headD [] := by
        intro l; rw [List.map_map]; rfl
      rw [e, e, hk]
    rw [this]
  have hrem : remaining after = [] := (remaining_nil_iff after).2 hw0
  have hloop : ∀ e, eloLoop k pick' ELO_LIMIT after e = .ok (after, e) := by
    intro e
    rw [show ELO_LIMIT = 49999 + 1 from rfl]
    rw [eloLoop]
    rw [hrem]
    rfl
  refine ⟨fun c => if c ∈ cs then 1500 else 0, ?_, fun c hc => by simp [hc]⟩
  unfold eloFromWinCounts
  rw [hcs]
  simp only [bind, Except.bind]
  rw [hloop]
  rfl

theorem applyMatch_apply (k : ℝ) (e : Name → ℝ) (w l c : Name) :
    applyMatch k e w l c = e c + (if w = c then k * (1 - eloExpected (e l - e w) 400) else 0)
      - (if l = c then k * (1 - eloExpected (e l - e w) 400) else 0) := by
  unfold applyMatch eloChange
  simp only [Function.update_apply]
  by_cases hl : c = l
  · subst hl
    by_cases hw : c = w
    · subst hw; simp; 
    · simp [hw, Ne.symm hw]; ring
  · by_cases hw : c = w
    · subst hw; simp [hl, Ne.symm hl]
    · simp [hl, hw, Ne.symm hl, Ne.symm hw]

theorem splitGt_pair {key w l : Name} (hs : splitGt key = [w, l]) : Spec.winner key = w ∧ Spec.loser key = l := by
  simp [Spec.winner, Spec.loser, hs]

/-- A rating moves by at most `k` per match played: up only by wins, down only by losses. Never having lost means at least
1500, never having won at most 1500. -/
theorem C109_between {k : ℝ} (hk : 0 ≤ k) {pick : ℕ → ℕ} {ctn : Wins} {cs : List Name} {elo : Name → ℝ} {after : Wins}
    (hn : (ctn.map Prod.fst).Nodup) (h : eloFromWinCounts k pick ctn = .ok (cs, elo, after)) {c : Name} (hc : c ∈ cs) :
    elo c ≤ 1500 + k * (Spec.wins ctn c - Spec.wins after c) ∧
    1500 - k * (Spec.losses ctn c - Spec.losses after c) ≤ elo c ∧
    ((∀ key ∈ ctn.map Prod.fst, Spec.loser key ≠ c) → 1500 ≤ elo c) ∧
    ((∀ key ∈ ctn.map Prod.fst, Spec.winner key ≠ c) → elo c ≤ 1500) := by
  obtain ⟨hcs, hl⟩ := eloFrom_ok h
  have hwins : ∀ l : Wins, Spec.wins l c = (l.map fun kc => (fun key => if Spec.winner key = c then (1:ℝ) else 0) kc.1 * kc.2).sum := by
    intro l; unfold Spec.wins; congr 1; apply List.map_congr_left; intro kc _; simp
  have hloss : ∀ l : Wins, Spec.losses l c = (l.map fun kc => (fun key => if Spec.loser key = c then (1:ℝ) else 0) kc.1 * kc.2).sum := by
    intro l; unfold Spec.losses; congr 1; apply List.map_congr_left; intro kc _; simp
  have := eloLoop_inv (k := k) (pick := pick)
    (I := fun c' e => c'.map Prod.fst = ctn.map Prod.fst ∧
      e c ≤ 1500 + k * (Spec.wins ctn c - Spec.wins c' c) ∧
      1500 - k * (Spec.losses ctn c - Spec.losses c' c) ≤ e c)
    (by
      intro c' e key v w l hin hv hs ⟨h1, h2, h3⟩
      have hn' : (c'.map Prod.fst).Nodup := by rw [h1]; exact hn
      obtain ⟨hw, hlo⟩ := splitGt_pair hs
      have e1 := sum_useUp hn' hin (fun key => if Spec.winner key = c then (1:ℝ) else 0)
      have e2 := sum_useUp hn' hin (fun key => if Spec.loser key = c then (1:ℝ) else 0)
      rw [← hwins, ← hwins, hw] at e1
      rw [← hloss, ← hloss, hlo] at e2
      obtain ⟨he0, he1, _⟩ := C109_expected (e l - e w) 400
      have hg0 : 0 ≤ k * (1 - eloExpected (e l - e w) 400) := mul_nonneg hk (by linarith)
      have hg1 : k * (1 - eloExpected (e l - e w) 400) ≤ k := by nlinarith
      refine ⟨by rw [useUp_keys, h1], ?_, ?_⟩
      · rw [e1, applyMatch_apply]
        split_ifs <;> nlinarith
      · rw [e2, applyMatch_apply]
        split_ifs <;> nlinarith)
    ELO_LIMIT ctn _ (after, elo) ⟨rfl, by simp [hc], by simp [hc]⟩ hl
  obtain ⟨h1, h2, h3⟩ := this
  refine ⟨h2, h3, fun hno => ?_, fun hno => ?_⟩
  · have hz : ∀ l : Wins, l.map Prod.fst = ctn.map Prod.fst → Spec.losses l c = 0 := by
      intro l hl
      apply List.sum_eq_zero
      intro x hx
      obtain ⟨kc, hkc, rfl⟩ := List.mem_map.1 hx
      rw [if_neg (hno _ (by rw [← hl]; exact List.mem_map.2 ⟨kc, hkc, rfl⟩))]
    simp only at h3 h1
    rw [hz ctn rfl, hz after h1] at h3
    linarith
  · have hz : ∀ l : Wins, l.map Prod.fst = ctn.map Prod.fst → Spec.wins l c = 0 := by
      intro l hl
      apply List.sum_eq_zero
      intro x hx
      obtain ⟨kc, hkc, rfl⟩ := List.mem_map.1 hx
      rw [if_neg (hno _ (by rw [← hl]; exact List.mem_map.2 ⟨kc, hkc, rfl⟩))]
    simp only at h2 h1
    rw [hz ctn rfl, hz after h1] at h2
    linarith

/-- One rated match: `k (1 - E)` points go from the loser to the winner, `E` being what the winner was expected to score
before the match. -/
noncomputable def Spec.rated (k : ℝ) (elo : Name → ℝ) (wl : Name × Name) : Name → ℝ := fun c =>
  let gain := k * (1 - eloExpected (elo wl.2 - elo wl.1) 400)
  elo c + (if c = wl.1 then gain else 0) - (if c = wl.2 then gain else 0)

theorem eloLoop_history {k : ℝ} {pick : ℕ → ℕ} :
    ∀ (fuel : ℕ) (ctn : Wins) (elo : Name → ℝ) (r : Wins × (Name → ℝ)), (ctn.map Prod.fst).Nodup →
      eloLoop k pick fuel ctn elo = .ok r →
      ∃ keys : List Name, (∀ key ∈ keys, (splitGt key).length = 2) ∧
        (∀ kc ∈ r.1, (kc.1, kc.2 + keys.count kc.1) ∈ ctn) ∧ (∀ key ∈ keys, key ∈ ctn.map Prod.fst) ∧
        r.2 = (keys.map fun key => (Spec.winner key, Spec.loser key)).foldl (Spec.rated k) elo := by
  intro fuel
  induction fuel with
  | zero =>
    intro ctn elo r _ h; simp only [eloLoop, Except.ok.injEq] at h; subst h
    exact ⟨[], by simp, by simp, by simp, rfl⟩
  | succ n ih =>
    intro ctn elo r hn h
    unfold eloLoop at h
    split at h
    · simp only [Except.ok.injEq] at h; subst h
      exact ⟨[], by simp, by simp, by simp, rfl⟩
    · rename_i kc hkc
      have hmem : kc ∈ remaining ctn := List.mem_of_getElem? hkc
      simp only [remaining, List.mem_filter, decide_eq_true_eq] at hmem
      split at h
      · rename_i w l hs
        obtain ⟨keys, h1, h2, h3, h4⟩ := ih _ _ _ (by rw [useUp_keys]; exact hn) h
        obtain ⟨hw, hl⟩ := splitGt_pair hs
        refine ⟨kc.1 :: keys, ?_, ?_, ?_, ?_⟩
        · intro key hk
          rcases List.mem_cons.1 hk with rfl | hk
          · rw [hs]; rfl
          · exact h1 key hk
        · intro kc' hk'
          have hin := h2 kc' hk'
          unfold useUp at hin
          obtain ⟨kc0, hkc0, e⟩ := List.mem_map.1 hin
          by_cases he : kc0.1 = kc.1
          · rw [if_pos he, Prod.mk.injEq] at e
            have e1 : kc.1 = kc'.1 := by rw [← he]; exact e.1
            rw [List.count_cons, if_pos (by simp [e1])]
            have : kc0 = (kc'.1, kc'.2 + ((keys.count kc'.1 + 1 : ℕ) : ℝ)) := by
              refine Prod.ext e.1 ?_
              have := e.2
              push_cast
              linarith
            rw [← this]; exact hkc0
          · rw [if_neg he] at e
            have e1 : kc.1 ≠ kc'.1 := by
              intro h'; apply he; rw [h', e]
            rw [List.count_cons_of_ne e1, ← e]; exact hkc0
        · intro key hk
          rcases List.mem_cons.1 hk with rfl | hk
          · exact List.mem_map.2 ⟨kc, hmem.1, rfl⟩
          · rw [← useUp_keys ctn kc.1]; exact h3 key hk
        · rw [h4, List.map_cons, List.foldl_cons, hw, hl]
          congr 1
          funext c
          rw [applyMatch_apply]
          simp only [Spec.rated, eq_comm (a := c)]
      · simp at h

/-- The ratings are those of a sequence of rated matches, starting from 1500 each, in which every recorded result occurs
exactly as often as the counter was reduced by. -/
theorem C109_history {k : ℝ} {pick : ℕ → ℕ} {ctn : Wins} {cs : List Name} {elo : Name → ℝ} {after : Wins}
    (hn : (ctn.map Prod.fst).Nodup) (h : eloFromWinCounts k pick ctn = .ok (cs, elo, after)) :
    ∃ keys : List Name, (∀ key ∈ keys, (splitGt key).length = 2 ∧ key ∈ ctn.map Prod.fst) ∧
      (∀ kc ∈ after, (kc.1, kc.2 + keys.count kc.1) ∈ ctn) ∧
      elo = (keys.map fun key => (Spec.winner key, Spec.loser key)).foldl (Spec.rated k) (fun c => if c ∈ cs then 1500 else 0) := by
  obtain ⟨_, hl⟩ := eloFrom_ok h
  obtain ⟨keys, h1, h2, h3, h4⟩ := eloLoop_history ELO_LIMIT ctn _ _ hn hl
  exact ⟨keys, fun key hk => ⟨h1 key hk, h3 key hk⟩, h2, h4⟩

theorem eloLoop_runs {k : ℝ} {pick : ℕ → ℕ} : ∀ (fuel : ℕ) (ctn : Wins) (elo : Name → ℝ),
    (∀ key ∈ ctn.map Prod.fst, (splitGt key).length = 2) → ∃ r, eloLoop k pick fuel ctn elo = .ok r := by
  intro fuel
  induction fuel with
  | zero => intro ctn elo _; exact ⟨_, rfl⟩
  | succ n ih =>
    intro ctn elo hp
    unfold eloLoop
    split
    · exact ⟨_, rfl⟩
    · rename_i kc hkc
      have hmem : kc ∈ remaining ctn := List.mem_of_getElem? hkc
      simp only [remaining, List.mem_filter] at hmem
      have h2 := hp kc.1 (List.mem_map.2 ⟨kc, hmem.1, rfl⟩)
      obtain ⟨w, l, hs⟩ := List.length_eq_two.1 h2
      rw [hs]
      exact ih _ _ (by rw [useUp_keys]; exact hp)

theorem eloLoop_error {k : ℝ} {pick : ℕ → ℕ} : ∀ (fuel : ℕ) (ctn : Wins) (elo : Name → ℝ) (e : PyErr),
    eloLoop k pick fuel ctn elo = .error e → e = .valueError := by
  intro fuel
  induction fuel with
  | zero => intro ctn elo e h; simp [eloLoop] at h
  | succ n ih =>
    intro ctn elo e h
    unfold eloLoop at h
    split at h
    · simp at h
    · split at h
      · exact ih _ _ _ h
      · simp at h; exact h.symm

theorem secondParts_runs {ks : List Name} (h : ∀ key ∈ ks, 2 ≤ (splitGt key).length) : ∃ sec, secondParts ks = .ok sec := by
  induction ks with
  | nil => exact ⟨[], rfl⟩
  | cons a ks ih =>
    obtain ⟨sec, hsec⟩ := ih fun key hk => h key (by simp [hk])
    have ha := h a (by simp)
    unfold secondParts
    cases hs : splitGt a with
    | nil => rw [hs] at ha; simp at ha
    | cons p ps =>
      cases ps with
      | nil => rw [hs] at ha; simp at ha
      | cons b bs => simp only [hsec]; exact ⟨_, rfl⟩

theorem contestants_runs {ctn : Wins} (h : ∀ key ∈ ctn.map Prod.fst, '>' ∈ key) : ∃ cs, contestants ctn = .ok cs := by
  obtain ⟨sec, hsec⟩ := secondParts_runs (ks := ctn.map Prod.fst) fun key hk => by
    rw [splitGt_length]
    have := List.count_pos_iff.2 (h key hk)
    omega
  unfold contestants
  rw [hsec]
  exact ⟨_, rfl⟩

/-- Results written with names that do not contain `>` can always be rated. -/
theorem C109_runs {k : ℝ} {pick : ℕ → ℕ} {ctn : Wins}
    (h : ∀ key ∈ ctn.map Prod.fst, ∃ i j : Name, key = cmpName i j ∧ '>' ∉ i ∧ '>' ∉ j) :
    ∃ r, eloFromWinCounts k pick ctn = .ok r := by
  obtain ⟨cs, hcs⟩ := contestants_runs (ctn := ctn) fun key hk => by
    obtain ⟨i, j, rfl, _, _⟩ := h key hk
    simp [cmpName]
  obtain ⟨r, hr⟩ := eloLoop_runs (k := k) (pick := pick) ELO_LIMIT ctn (fun c => if c ∈ cs then 1500 else 0) fun key hk => by
    obtain ⟨i, j, rfl, hi, hj⟩ := h key hk
    rw [(C109_key i j).2 ⟨hi, hj⟩]; rfl
  unfold eloFromWinCounts
  rw [hcs]
  simp only [bind, Except.bind]
  rw [hr]
  exact ⟨_, rfl⟩

/-- A played result whose key has a second `>` (a name containing `>`) ends the whole computation with a ValueError,
whatever is drawn; a key without `>` with an IndexError. -/
theorem C109_bad_key {k : ℝ} {pick : ℕ → ℕ} {ctn : Wins} :
    ((ctn.map Prod.fst).Nodup → Spec.whole ctn ≤ 50000 → (∀ key ∈ ctn.map Prod.fst, '>' ∈ key) →
      (∃ kc ∈ ctn, 1 ≤ kc.2 ∧ 2 ≤ kc.1.count '>') → eloFromWinCounts k pick ctn = .error .valueError) ∧
    ((∃ key ∈ ctn.map Prod.fst, '>' ∉ key) → eloFromWinCounts k pick ctn = .error .indexError) := by
  constructor
  · rintro hn hlim hgt ⟨kc, hkc, h1, h2⟩
    obtain ⟨cs, hcs⟩ := contestants_runs hgt
    unfold eloFromWinCounts
    rw [hcs]
    simp only [bind, Except.bind]
    cases hl : eloLoop k pick ELO_LIMIT ctn (fun c => if c ∈ cs then 1500 else 0) with
    | error e => rw [eloLoop_error _ _ _ _ hl]
    | ok r =>
      exfalso
      have hw := eloLoop_whole ELO_LIMIT ctn _ _ hn hl
      have hin := eloLoop_inv (k := k) (pick := pick) (I := fun c _ => kc ∈ c)
        (by
          intro c e key v w l hin hv hs hI
          refine List.mem_map.2 ⟨kc, hI, ?_⟩
          rw [if_neg]
          intro he
          have := splitGt_length kc.1
          rw [he, hs] at this
          rw [he] at h2
          simp at this; omega) ELO_LIMIT ctn _ r hkc hl
      have h0 : Spec.whole r.1 = 0 := by
        rw [hw]; have : ELO_LIMIT = 50000 := rfl
        omega
      have : remaining r.1 = [] := (remaining_nil_iff _).2 h0
      have hm : kc ∈ remaining r.1 := by simp [remaining, hin, h1]
      rw [this] at hm
      simp at hm
  · rintro ⟨key, hk, hno⟩
    have : secondParts (ctn.map Prod.fst) = .error .indexError := by
      generalize ctn.map Prod.fst = ks at hk
      induction ks with
      | nil => simp at hk
      | cons a ks ih =>
        unfold secondParts
        rcases List.mem_cons.1 hk with rfl | hk
        · rw [splitGt_plain hno]
        · cases hs : splitGt a with
          | nil => rfl
          | cons p ps =>
            cases ps with
            | nil => rfl
            | cons b bs => simp only [ih hk]; rfl
    unfold eloFromWinCounts contestants
    rw [this]
    rfl

/-! ## Battles -/

/-- The count of a key. -/
noncomputable def Spec.count (b : Wins) (key : Name) : ℝ := (b.map fun kc => if kc.1 = key then kc.2 else 0).sum

/-- In this round both took part, and `i` scored more than `atol` above `j`. -/
def Spec.won (atol : ℝ) (i j : Name) (round : List Entry) : Prop :=
  ∃ x y : ℝ, (some x, i) ∈ round ∧ (some y, j) ∈ round ∧ y + atol < x

theorem countKey_count {b : Wins} (hn : (b.map Prod.fst).Nodup) (key key' : Name) :
    ((countKey b key').map Prod.fst).Nodup ∧
    Spec.count (countKey b key') key = Spec.count b key + if key' = key then 1 else 0 := by
  unfold countKey
  by_cases hm : key' ∈ b.map Prod.fst
  · rw [if_pos hm]
    have hk : (b.map fun kc => if kc.1 = key' then (kc.1, kc.2 + 1) else kc).map Prod.fst = b.map Prod.fst := by
      rw [List.map_map]; apply List.map_congr_left; intro kc _; simp only [Function.comp]; split_ifs <;> rfl
    refine ⟨by rw [hk]; exact hn, ?_⟩
    clear hk
    induction b with
    | nil => simp at hm
    | cons a t ih =>
      simp only [List.map_cons, List.nodup_cons] at hn
      simp only [List.map_cons, List.mem_cons] at hm
      by_cases ha : a.1 = key'
      · have hno : (t.map fun kc => if kc.1 = key' then (kc.1, kc.2 + 1) else kc) = t := by
          conv_rhs => rw [← List.map_id t]
          apply List.map_congr_left
          intro kc hkc
          rw [if_neg]; · rfl
          intro e; exact hn.1 (List.mem_map.2 ⟨kc, hkc, by rw [e, ha]⟩)
        simp only [Spec.count, List.map_cons, List.sum_cons, hno, ha, if_true]
        split_ifs <;> ring
      · have hm' : key' ∈ t.map Prod.fst := by
          rcases hm with hm | hm
          · exact absurd hm.symm ha
          · exact hm
        have := ih hn.2 hm'
        simp only [Spec.count, List.map_cons, List.sum_cons, ha, if_false] at this ⊢
        rw [this]; ring
  · rw [if_neg hm]
    refine ⟨?_, ?_⟩
    · rw [List.map_append, List.map_cons, List.map_nil]
      exact List.nodup_append.2 ⟨hn, by simp, fun a ha c hc => by
        simp only [List.mem_singleton] at hc; subst hc; rintro rfl; exact hm ha⟩
    · simp only [Spec.count, List.map_append, List.map_cons, List.map_nil, List.sum_append, List.sum_cons, List.sum_nil]
      ring

theorem fold_count (keys : List Name) {b : Wins} (hn : (b.map Prod.fst).Nodup) (key : Name) :
    ((keys.foldl countKey b).map Prod.fst).Nodup ∧
    Spec.count (keys.foldl countKey b) key = Spec.count b key + keys.count key := by
  induction keys generalizing b with
  | nil => simp [hn]
  | cons a t ih =>
    obtain ⟨h1, h2⟩ := countKey_count hn key a
    obtain ⟨h3, h4⟩ := ih h1
    refine ⟨h3, ?_⟩
    rw [List.foldl_cons, h4, h2, List.count_cons]
    simp only [beq_iff_eq]
    split_ifs <;> push_cast <;> ring

theorem cmpName_inj {i j i' j' : Name} (hi : '>' ∉ i) (hj : '>' ∉ j) (hi' : '>' ∉ i') (hj' : '>' ∉ j')
    (h : cmpName i j = cmpName i' j') : i = i' ∧ j = j' := by
  have h1 := (C109_key i j).2 ⟨hi, hj⟩
  have h2 := (C109_key i' j').2 ⟨hi', hj'⟩
  rw [h, h2] at h1
  simp only [List.cons.injEq, and_true] at h1
  exact ⟨h1.1.symm, h1.2.symm⟩

theorem mem_roundKeys {atol : ℝ} {valid : List Entry} {key : Name} :
    key ∈ roundKeys atol valid ↔ ∃ (i j : ℕ) (mi mj : Entry), valid[i]? = some mi ∧ valid[j]? = some mj ∧ j ≠ i ∧ beats atol mi.1 mj.1 ∧
      key = cmpName mi.2 mj.2 := by
  unfold roundKeys
  simp only [List.mem_flatMap, List.mem_range, List.mem_filterMap]
  constructor
  · rintro ⟨i, hi, j, hj, h⟩
    split at h
    · rename_i mi mj h1 h2
      split_ifs at h with hb
      · simp only [Option.some.injEq] at h
        exact ⟨i, j, mi, mj, h1, h2, hb.1, hb.2, h.symm⟩
    · simp at h
  · rintro ⟨i, j, mi, mj, h1, h2, h3, h4, rfl⟩
    refine ⟨i, (List.getElem?_eq_some_iff.1 h1).1, j, (List.getElem?_eq_some_iff.1 h2).1, ?_⟩
    rw [h1, h2]
    simp only
    rw [if_pos ⟨h3, h4⟩]

theorem names_inj {valid : List Entry} (hn : (valid.map Prod.snd).Nodup) {a b : ℕ} {ma mb : Entry} (ha : valid[a]? = some ma)
    (hb : valid[b]? = some mb) (h : ma.2 = mb.2) : a = b := by
  have h1 : (valid.map Prod.snd)[a]? = some ma.2 := by rw [List.getElem?_map, ha]; rfl
  have h2 : (valid.map Prod.snd)[b]? = some ma.2 := by rw [List.getElem?_map, hb, h]; rfl
  have la := (List.getElem?_eq_some_iff.1 h1)
  have lb := (List.getElem?_eq_some_iff.1 h2)
  exact (List.Nodup.getElem_inj_iff hn).1 (la.2.trans lb.2.symm)

theorem nodup_roundKeys {atol : ℝ} {valid : List Entry} (hn : (valid.map Prod.snd).Nodup) (hg : ∀ e ∈ valid, '>' ∉ e.2) :
    (roundKeys atol valid).Nodup := by
  have hgt : ∀ {a : ℕ} {ma : Entry}, valid[a]? = some ma → '>' ∉ ma.2 := fun h => hg _ (List.mem_of_getElem? h)
  unfold roundKeys
  rw [List.nodup_flatMap]
  constructor
  · intro i _
    apply List.Nodup.filterMap _ List.nodup_range
    intro j j' key h h'
    simp only [Option.mem_def] at h h'
    split at h
    · rename_i mi mj h1 h2
      split at h'
      · rename_i mi' mj' h1' h2'
        split_ifs at h with hb
        split_ifs at h' with hb'
        simp only [Option.some.injEq] at h h'
        have := (cmpName_inj (hgt h1) (hgt h2) (hgt h1') (hgt h2') (h.trans h'.symm)).2
        exact names_inj hn h2 h2' this
      · simp at h'
    · simp at h
  · apply List.Pairwise.imp _ List.nodup_range
    intro i i' hne key h h'
    simp only [List.mem_filterMap] at h h'
    obtain ⟨j, _, h⟩ := h
    obtain ⟨j', _, h'⟩ := h'
    split at h
    · rename_i mi mj h1 h2
      split at h'
      · rename_i mi' mj' h1' h2'
        split_ifs at h with hb
        split_ifs at h' with hb'
        simp only [Option.some.injEq] at h h'
        have := (cmpName_inj (hgt h1) (hgt h2) (hgt h1') (hgt h2') (h.trans h'.symm)).1
        exact hne (names_inj hn h1 h1' this)
      · simp at h'
    · simp at h

open Classical in
theorem roundKeys_count {atol : ℝ} (ha : 0 ≤ atol) {valid : List Entry} (hn : (valid.map Prod.snd).Nodup)
    (hg : ∀ e ∈ valid, '>' ∉ e.2) {i j : Name} (hi : '>' ∉ i) (hj : '>' ∉ j) :
    (roundKeys atol valid).count (cmpName i j) = if Spec.won atol i j valid then 1 else 0 := by
  have hgt : ∀ {a : ℕ} {ma : Entry}, valid[a]? = some ma → '>' ∉ ma.2 := fun h => hg _ (List.mem_of_getElem? h)
  have hmem : cmpName i j ∈ roundKeys atol valid ↔ Spec.won atol i j valid := by
    rw [mem_roundKeys]
    constructor
    · rintro ⟨a, b, ma, mb, h1, h2, h3, h4, h5⟩
      obtain ⟨e1, e2⟩ := cmpName_inj hi hj (hgt h1) (hgt h2) h5
      unfold beats at h4
      split at h4
      · rename_i x y hx hy
        refine ⟨x, y, ?_, ?_, h4⟩
        · rw [e1, ← hx]; exact List.mem_of_getElem? h1
        · rw [e2, ← hy]; exact List.mem_of_getElem? h2
      · exact h4.elim
    · rintro ⟨x, y, h1, h2, h3⟩
      obtain ⟨a, h1⟩ := List.getElem?_of_mem h1
      obtain ⟨b, h2⟩ := List.getElem?_of_mem h2
      refine ⟨a, b, _, _, h1, h2, ?_, h3, rfl⟩
      rintro rfl
      rw [h1] at h2
      simp only [Option.some.injEq, Prod.mk.injEq] at h2
      linarith [h2.1]
  split_ifs with h
  · exact List.count_eq_one_of_mem (nodup_roundKeys hn hg) (hmem.2 h)
  · exact List.count_eq_zero.2 fun h' => h (hmem.1 h')

open Classical in
/-- After any number of rounds, `i>j` counts exactly the rounds in which both `i` and `j` were assessed and `i` scored
more than `atol` above `j`. Failures and NaN scores count for nobody. -/
theorem C109_battles {atol : ℝ} (ha : 0 ≤ atol) {rounds : List (List Entry)}
    (hn : ∀ r ∈ rounds, (r.map Prod.snd).Nodup) (hg : ∀ r ∈ rounds, ∀ e ∈ r, '>' ∉ e.2) {i j : Name} (hi : '>' ∉ i) (hj : '>' ∉ j) :
    Spec.count (battles atol rounds) (cmpName i j) = (rounds.countP fun r => decide (Spec.won atol i j r) : ℕ) := by
  have key : ∀ (rs : List (List Entry)) (b : Wins), (∀ r ∈ rs, r ∈ rounds) → (b.map Prod.fst).Nodup →
      Spec.count (rs.foldl (battleRound atol) b) (cmpName i j) =
        Spec.count b (cmpName i j) + (rs.countP fun r => decide (Spec.won atol i j r) : ℕ) := by
    intro rs
    induction rs with
    | nil => intro b _ _; simp
    | cons r rs ih =>
      intro b hr hb
      obtain ⟨h1, h2⟩ := fold_count (roundKeys atol r) hb (cmpName i j)
      rw [List.foldl_cons, show battleRound atol b r = (roundKeys atol r).foldl countKey b from rfl]
      rw [ih _ (fun r' h => hr r' (by simp [h])) h1, h2]
      rw [roundKeys_count ha (hn r (hr r (by simp))) (hg r (hr r (by simp))) hi hj, List.countP_cons]
      simp only [decide_eq_true_eq]
      split_ifs <;> push_cast <;> ring
  have := key rounds [] (fun r h => h) (by simp)
  simpa [battles, Spec.count] using this

/-- With a non-negative tolerance a round never counts both `i>j` and `j>i`, and never `i>i`. -/
theorem C109_no_double {atol : ℝ} (ha : 0 ≤ atol) {rounds : List (List Entry)}
    (hn : ∀ r ∈ rounds, (r.map Prod.snd).Nodup) (hg : ∀ r ∈ rounds, ∀ e ∈ r, '>' ∉ e.2) {i j : Name} (hi : '>' ∉ i) (hj : '>' ∉ j) :
    Spec.count (battles atol rounds) (cmpName i j) + Spec.count (battles atol rounds) (cmpName j i) ≤ rounds.length ∧
    Spec.count (battles atol rounds) (cmpName i i) = 0 := by
  classical
  have uniq : ∀ r ∈ rounds, ∀ {a : Name} {x y : Option ℝ}, (x, a) ∈ r → (y, a) ∈ r → x = y := by
    intro r hr a x y hx hy
    have := List.inj_on_of_nodup_map (hn r hr) hx hy rfl
    simpa using this
  have excl : ∀ r ∈ rounds, Spec.won atol i j r → ¬ Spec.won atol j i r := by
    rintro r hr ⟨x, y, h1, h2, h3⟩ ⟨x', y', h1', h2', h3'⟩
    have e1 := uniq r hr h1 h2'
    have e2 := uniq r hr h2 h1'
    simp only [Option.some.injEq] at e1 e2
    subst e1 e2
    linarith
  constructor
  · rw [C109_battles ha hn hg hi hj, C109_battles ha hn hg hj hi]
    norm_cast
    clear uniq hn hg
    induction rounds with
    | nil => simp
    | cons r rs ih =>
      rw [List.countP_cons, List.countP_cons, List.length_cons]
      have := ih fun r' h => excl r' (by simp [h])
      have h0 := excl r (by simp)
      simp only [decide_eq_true_eq]
      split_ifs <;> first | omega | (exfalso; tauto)
  · rw [C109_battles ha hn hg hi hi]
    norm_cast
    rw [List.countP_eq_zero]
    intro r hr
    simp only [decide_eq_true_eq]
    rintro ⟨x, y, h1, h2, h3⟩
    have e := uniq r hr h1 h2
    simp only [Option.some.injEq] at e
    linarith

/-! ## Managers -/

variable {S Y W : Type}

/-- What the manager chose after seeing rows `0, …, t`, and its state then: called with `e = -1` on the first `nBurn` rows
and `e = 1` afterwards. -/
def Spec.chosen (mgr : Manager S Y W) (s0 : S) (nBurn : ℕ) (rows : ℕ → Y) : ℕ → W × S
  | 0 => mgr s0 (rows 0) (if 0 < nBurn then -1 else 1)
  | t + 1 => mgr (Spec.chosen mgr s0 nBurn rows t).2 (rows (t + 1)) (if t + 1 < nBurn then -1 else 1)

theorem burnIn_chosen (mgr : Manager S Y W) (s0 : S) (nBurn : ℕ) (rows : ℕ → Y) (n : ℕ) : ∀ a, a + n < nBurn →
    burnIn mgr ((List.range' (a + 1) n).map rows)
      (some (Spec.chosen mgr s0 nBurn rows a).1, (Spec.chosen mgr s0 nBurn rows a).2) =
      (some (Spec.chosen mgr s0 nBurn rows (a + n)).1, (Spec.chosen mgr s0 nBurn rows (a + n)).2) := by
  induction n with
  | zero => intro a _; simp [burnIn]
  | succ n ih =>
    intro a ha
    have h := ih (a + 1) (by omega)
    rw [List.range'_succ, List.map_cons, burnIn]
    have e : mgr (Spec.chosen mgr s0 nBurn rows a).2 (rows (a + 1)) (-1) = Spec.chosen mgr s0 nBurn rows (a + 1) := by
      rw [Spec.chosen, if_pos (by omega)]
    simp only [e]
    rw [h, show a + 1 + n = a + (n + 1) by omega]

theorem evalLoop_chosen (mgr : Manager S Y W) (metric : Y → W → ℝ) (s0 : S) (nBurn : ℕ) (rows : ℕ → Y) (n : ℕ) :
    ∀ a, nBurn ≤ a + 2 →
    evalLoop mgr metric ((List.range' (a + 2) n).map rows) (some (Spec.chosen mgr s0 nBurn rows a).1)
      (some (Spec.chosen mgr s0 nBurn rows (a + 1)).1, (Spec.chosen mgr s0 nBurn rows (a + 1)).2) =
      .ok ((List.range' (a + 2) n).map fun t => metric (rows t) (Spec.chosen mgr s0 nBurn rows (t - 2)).1) := by
  induction n with
  | zero => intro a _; simp [evalLoop]
  | succ n ih =>
    intro a ha
    have h := ih (a + 1) (by omega)
    rw [List.range'_succ, List.map_cons, List.map_cons, evalLoop]
    have e : mgr (Spec.chosen mgr s0 nBurn rows (a + 1)).2 (rows (a + 2)) 1 = Spec.chosen mgr s0 nBurn rows (a + 2) := by
      have : Spec.chosen mgr s0 nBurn rows (a + 2) = mgr (Spec.chosen mgr s0 nBurn rows (a + 1)).2 (rows (a + 1 + 1))
        (if a + 1 + 1 < nBurn then -1 else 1) := rfl
      rw [this, if_neg (by omega)]
    simp only [e]
    rw [h]
    simp only [bind, Except.bind, pure, Except.pure]
    rw [show a + 2 - 2 = a by omega]

/-- The returns behind `manager_stats`: row `t` (from the second row after the burn-in on) is scored with the portfolio
chosen after row `t-2`. The portfolio chosen after row `t-1` exists by then but is not used: the scored portfolio is one
step stale, and `n - n_burn - 1` rows are scored. -/
theorem C109_stale (mgr : Manager S Y W) (metric : Y → W → ℝ) (s0 : S) {nBurn n : ℕ} (hb : 1 ≤ nBurn) (hn : nBurn < n)
    (rows : ℕ → Y) :
    managerReturns mgr metric s0 nBurn ((List.range n).map rows) =
      .ok ((List.range' (nBurn + 1) (n - nBurn - 1)).map fun t => metric (rows t) (Spec.chosen mgr s0 nBurn rows (t - 2)).1) := by
  obtain ⟨b, rfl⟩ : ∃ b, nBurn = b + 1 := ⟨nBurn - 1, by omega⟩
  obtain ⟨q, rfl⟩ : ∃ q, n = b + 1 + (q + 1) := ⟨n - b - 2, by omega⟩
  have hsplit : List.range (b + 1 + (q + 1)) = List.range' 0 (b + 1) ++ List.range' (b + 1) (q + 1) := by
    rw [List.range_eq_range']
    have := List.range'_append_1 (s := 0) (m := b + 1) (n := q + 1)
    rw [← this, Nat.zero_add]
  unfold managerReturns
  rw [if_neg (by simp), hsplit, List.map_append, List.take_left' (by simp), List.drop_left' (by simp)]
  rw [show List.range' 0 (b + 1) = 0 :: List.range' 1 b from rfl, List.map_cons]
  rw [show ∀ (y : Y) (ys : List Y), burnIn mgr (y :: ys) (none, s0) = burnIn mgr ys (some (mgr s0 y (-1)).1, (mgr s0 y (-1)).2)
    from fun _ _ => rfl]
  have e0 : mgr s0 (rows 0) (-1) = Spec.chosen mgr s0 (b + 1) rows 0 := by rw [Spec.chosen, if_pos (by omega)]
  rw [e0]
  have h1 := burnIn_chosen mgr s0 (b + 1) rows b 0 (by omega)
  simp only [Nat.zero_add] at h1 ⊢
  rw [h1]
  rw [show List.range' (b + 1) (q + 1) = (b + 1) :: List.range' (b + 1 + 1) q from rfl, List.map_cons, evalLoop]
  have e1 : mgr (Spec.chosen mgr s0 (b + 1) rows b).2 (rows (b + 1)) 1 = Spec.chosen mgr s0 (b + 1) rows (b + 1) := by
    have : Spec.chosen mgr s0 (b + 1) rows (b + 1) = mgr (Spec.chosen mgr s0 (b + 1) rows b).2 (rows (b + 1))
        (if b + 1 < b + 1 then -1 else 1) := rfl
    rw [this, if_neg (by omega)]
  simp only [e1]
  have h2 := evalLoop_chosen mgr metric s0 (b + 1) rows q b (by omega)
  rw [show b + 1 + 1 = b + 2 from rfl, h2]
  simp only [bind, Except.bind, pure, Except.pure]
  rw [show b + 1 + (q + 1) - (b + 1) - 1 = q by omega]

/-- Without burn-in rows `manager_stats` fails, and so it does with no row after the burn-in. -/
theorem C109_no_burn (mgr : Manager S Y W) (metric : Y → W → ℝ) (s0 : S) (nBurn : ℕ) (xs : List Y) :
    (nBurn = 0 ∨ xs.length ≤ nBurn) → ∃ e, managerReturns mgr metric s0 nBurn xs = .error e := by
  intro h
  by_cases hl : xs.length ≤ nBurn
  · unfold managerReturns; rw [if_pos hl]; exact ⟨_, rfl⟩
  · have h0 : nBurn = 0 := by tauto
    subst h0
    unfold managerReturns
    rw [if_neg hl]
    cases xs with
    | nil => simp at hl
    | cons y ys => exact ⟨_, rfl⟩

/-! ## Rankings -/

variable {ι : Type}

/-- The leaderboard has one row per portfolio method, with its variances under the training and the test covariance, and is
sorted by the latter; without a test covariance both columns agree. -/
theorem C109_rankings [Fintype ι] (covTrain : Matrix ι ι ℝ) (ports : List (String × (Matrix ι ι ℝ → ι → ℝ)))
    (covTest : Matrix ι ι ℝ) :
    (varianceRankings covTrain ports (some covTest)).Pairwise (fun a b => a.2.2 ≤ b.2.2) ∧
    (varianceRankings covTrain ports (some covTest)).Perm
      (ports.map fun p => (p.1, Precise.Spec.quad covTrain (p.2 covTrain), Precise.Spec.quad covTest (p.2 covTrain))) ∧
    ∀ r ∈ varianceRankings covTrain ports none, r.2.1 = r.2.2 := by
  refine ⟨?_, ?_, ?_⟩
  · unfold varianceRankings
    haveI : Std.Total (fun a b : RankRow => a.2.2 ≤ b.2.2) := ⟨fun a b => le_total _ _⟩
    haveI : IsTrans RankRow (fun a b : RankRow => a.2.2 ≤ b.2.2) := ⟨fun a b c h h' => le_trans h h'⟩
    exact List.pairwise_insertionSort _ _
  · exact List.perm_insertionSort _ _
  · intro r hr
    unfold varianceRankings at hr
    rw [List.mem_insertionSort] at hr
    obtain ⟨p, _, rfl⟩ := List.mem_map.1 hr
    rfl

/-- The stock study trains on the end of the sample and tests on its beginning: every portfolio is computed from the last
`n - ⌊3n/4⌋` rows and ranked by its variance on the `⌊3n/4⌋` rows before them. -/
theorem C109_train_after_test [Fintype ι] (cov : List (ι → ℝ) → Matrix ι ι ℝ) (ports : List (String × (Matrix ι ι ℝ → ι → ℝ)))
    (first last : List (ι → ℝ)) (n : ℕ) (hn : n = first.length + last.length) (hf : first.length = 3 * n / 4) :
    (stockRankings cov ports (first ++ last) n).Perm
      (ports.map fun p => (p.1, Precise.Spec.quad (cov last) (p.2 (cov last)), Precise.Spec.quad (cov first) (p.2 (cov last)))) := by
  have hfl : ⌊(3 / 4 : ℝ) * (n : ℝ)⌋₊ = 3 * n / 4 := by
    rw [show (3 / 4 : ℝ) * (n : ℝ) = ((3 * n : ℕ) : ℝ) / ((4 : ℕ) : ℝ) by push_cast; ring]
    exact Nat.floor_div_eq_div _ _
  unfold stockRankings
  simp only [hfl]
  rw [List.take_left' hf, List.drop_left' hf]
  exact (C109_rankings (cov last) ports (cov first)).2.1

/-- One race hands out `n, n-1, …, 1` points down the leaderboard: `n(n+1)/2` in total. -/
theorem C109_points (rankings : List RankRow) :
    2 * ((racePoints rankings).map Prod.snd).sum = rankings.length * (rankings.length + 1) ∧
    (∀ k (h : k < rankings.length), (racePoints rankings)[k]? = some ((rankings[k]'h).1, rankings.length - k)) ∧
    (∀ nk ∈ racePoints rankings, 1 ≤ nk.2) := by
  have hget : ∀ k (h : k < rankings.length), (racePoints rankings)[k]? = some ((rankings[k]'h).1, rankings.length - k) := by
    intro k h
    unfold racePoints
    rw [List.getElem?_map, List.getElem?_zipIdx, List.getElem?_eq_getElem h]
    simp
  refine ⟨?_, hget, ?_⟩
  · have h1 : (racePoints rankings).map Prod.snd = (List.range rankings.length).map fun k => rankings.length - k := by
      apply List.ext_getElem?
      intro k
      by_cases h : k < rankings.length
      · rw [List.getElem?_map, hget k h, List.getElem?_map, List.getElem?_range h]; rfl
      · rw [List.getElem?_eq_none (by simp [racePoints]; omega), List.getElem?_eq_none (by simp; omega)]
    rw [h1]
    generalize rankings.length = n
    have key : ∀ n : ℕ, 2 * ((List.range n).map fun k => n - k).sum = n * (n + 1) := by
      intro n
      induction n with
      | zero => simp
      | succ n ih =>
        rw [List.range_succ_eq_map, List.map_cons, List.sum_cons, List.map_map]
        have : (List.range n).map ((fun k => n + 1 - k) ∘ Nat.succ) = (List.range n).map fun k => n - k := by
          apply List.map_congr_left; intro k _; simp only [Function.comp]; omega
        rw [this, Nat.mul_add, ih, Nat.sub_zero]; ring
    exact key n
  · intro nk h
    obtain ⟨k, hk⟩ := List.getElem?_of_mem h
    by_cases hlt : k < rankings.length
    · rw [hget k hlt] at hk
      simp only [Option.some.injEq] at hk
      subst hk
      simp only; omega
    · rw [List.getElem?_eq_none (by simp [racePoints]; omega)] at hk
      simp at hk

/-- Over any number of races of the same `n` distinct methods the totals add up to `n(n+1)/2` per race. -/
theorem C109_race {names : List String} (hn : names.Nodup) {races : List (List RankRow)}
    (hr : ∀ r ∈ races, (r.map Prod.fst).Perm names) :
    2 * (names.map (raceTotal races)).sum = races.length * (names.length * (names.length + 1)) := by
  induction races with
  | nil =>
    have : names.map (raceTotal []) = names.map fun _ => 0 := by
      apply List.map_congr_left; intro n _; rfl
    rw [this]; simp
  | cons r rs ih =>
    have h1 := ih fun r' h => hr r' (by simp [h])
    have hstep : ∀ name, raceTotal (r :: rs) name = (((racePoints r).filter fun nk => nk.1 = name).map Prod.snd).sum + raceTotal rs name :=
      fun name => by simp [raceTotal]
    have hlen : r.length = names.length := by simpa using (hr r (by simp)).length_eq
    have hnames : (racePoints r).map Prod.fst = r.map Prod.fst := by
      apply List.ext_getElem?
      intro k
      by_cases h : k < r.length
      · rw [List.getElem?_map, (C109_points r).2.1 k h, List.getElem?_map, List.getElem?_eq_getElem h]; rfl
      · rw [List.getElem?_eq_none (by simp [racePoints]; omega), List.getElem?_eq_none (by simp; omega)]
    have hsum : ∀ l : List (String × ℕ), (∀ nk ∈ l, nk.1 ∈ names) →
        (names.map fun name => ((l.filter fun nk => nk.1 = name).map Prod.snd).sum).sum = (l.map Prod.snd).sum := by
      intro l
      induction l with
      | nil => intro _; simp
      | cons a t iht =>
        intro hl
        have h2 := iht fun nk h => hl nk (by simp [h])
        have : ∀ name, (((a :: t).filter fun nk => nk.1 = name).map Prod.snd).sum =
            (if a.1 = name then a.2 else 0) + ((t.filter fun nk => nk.1 = name).map Prod.snd).sum := by
          intro name
          rw [List.filter_cons]
          split_ifs <;> simp_all
        simp only [this]
        rw [List.sum_map_add, h2, List.map_cons, List.sum_cons]
        congr 1
        have hcount : (names.map fun name => if a.1 = name then a.2 else 0).sum = names.count a.1 * a.2 := by
          clear hn hl this h2 iht hlen hnames hr hstep h1 ih
          induction names with
          | nil => simp
          | cons b bs ihb =>
            rw [List.map_cons, List.sum_cons, ihb, List.count_cons]
            simp only [beq_iff_eq, eq_comm (a := b)]
            split_ifs <;> ring
        rw [hcount, List.count_eq_one_of_mem hn (hl a (by simp)), one_mul]
    rw [List.map_congr_left (fun name _ => hstep name)]
    rw [List.sum_map_add, Nat.mul_add, h1, hsum _ (fun nk h => (hr r (by simp)).mem_iff.1 (by
      rw [← hnames]; exact List.mem_map.2 ⟨nk, h, rfl⟩)), (C109_points r).1, hlen, List.length_cons]
    ring

example : 2 * ((["p", "q"].map (raceTotal [[("p", 1, 2), ("q", 1, 3)], [("q", 1, 1), ("p", 0, 4)]])).sum) = 2 * (2 * 3) :=
  C109_race (by decide) (by
    intro r h
    simp only [List.mem_cons, List.not_mem_nil, or_false] at h
    rcases h with rfl | rfl
    · exact List.Perm.refl _
    · exact List.Perm.swap _ _ _)

/-! ## The hypotheses are met -/

/-- Two rounds of three contestants, one NaN. -/
example : Spec.won (1/2) ['a'] ['b'] [(some 3, ['a']), (some 1, ['b']), (none, ['c'])] :=
  ⟨3, 1, by simp, by simp, by norm_num⟩

/-- `a` beat `b` twice and a half match, `b` beat `c` once: three whole matches, all names legal. -/
example : ∃ cs elo after, eloFromWinCounts 10 (fun _ => 0) [(cmpName ['a'] ['b'], 5/2), (cmpName ['b'] ['c'], 1)] = .ok (cs, elo, after) ∧
    (cs.map elo).sum = 1500 * (cs.length : ℝ) ∧ 1500 ≤ elo ['a'] := by
  obtain ⟨⟨cs, elo, after⟩, h⟩ := C109_runs (k := 10) (pick := fun _ => 0) (ctn := [(cmpName ['a'] ['b'], 5/2), (cmpName ['b'] ['c'], 1)])
    (by
      intro key hk
      simp only [List.map_cons, List.map_nil, List.mem_cons, List.not_mem_nil, or_false] at hk
      rcases hk with rfl | rfl
      · exact ⟨_, _, rfl, by decide, by decide⟩
      · exact ⟨_, _, rfl, by decide, by decide⟩)
  have hc : ['a'] ∈ cs := by
    obtain ⟨_, hm⟩ := contestants_mem (eloFrom_ok h).1
    exact (hm (cmpName ['a'] ['b']) ['a'] ['b'] (by simp) (by decide)).1
  refine ⟨cs, elo, after, h, C109_total h, ?_⟩
  refine (C109_between (by norm_num) (by simp; decide) h hc).2.2.1 ?_
  intro key hk
  simp only [List.map_cons, List.map_nil, List.mem_cons, List.not_mem_nil, or_false] at hk
  rcases hk with rfl | rfl <;> decide

/-- A name with `>` in a played result. -/
example (pick : ℕ → ℕ) : eloFromWinCounts 10 pick [(cmpName ['a', '>'] ['b'], 1)] = .error .valueError :=
  C109_bad_key.1 (by simp) (by simp [Spec.whole]) (by simp [cmpName]) ⟨(cmpName ['a', '>'] ['b'], 1), by simp, by norm_num, by decide⟩

/-- A manager that puts everything on the last row it saw: row 3 is scored with row 1, not row 2. -/
example (x : ℕ → ℝ) : managerReturns (fun (s : Unit) (y : ℝ) (_ : ℤ) => (y, s)) (fun y w => y * w) () 2 ((List.range 4).map x) =
    .ok [x 3 * x 1] := by
  rw [C109_stale _ _ _ (by norm_num) (by norm_num)]
  simp [Spec.chosen]

end Precise.Legacy
