import Verif.Props.RoundingDouble

/-!
# C75, C76 for DiagonalCovariance, and the length of the burn-in in floats
-/

set_option linter.all false

namespace Precise

open Spec Obj

variable {ι : Type} [Fintype ι] {R : Rounding}

/-- C76: the burn-in length computed in floats is the one of exact arithmetic, `min 250 (max 5 ⌈1/r⌉)`, or one less
(when `1/r` just exceeds an integer and is rounded down to it). -/
theorem C76_burn_in (r : Fl R) (h0 : 0 < r.val) :
    ewaBurnNFl r ≤ (min 250 (max 5 ⌈1 / r.val⌉)).toNat ∧ (min 250 (max 5 ⌈1 / r.val⌉)).toNat ≤ ewaBurnNFl r + 1 ∧
    ((⌈1 / r.val⌉ : ℝ) = 1 / r.val → ewaBurnNFl r = (min 250 (max 5 ⌈1 / r.val⌉)).toNat) := by
  have hm := R.maxInt_ge
  have hv : (1 / r).val = R.rnd (1 / r.val) := by show R.rnd ((1 : Fl R).val / r.val) = _; rw [Fl.val_one]
  unfold ewaBurnNFl
  rw [hv]
  set y := 1 / r.val with hy
  have hy0 : 0 < y := by positivity
  have int : ∀ k : ℕ, k ≤ 250 → R.rnd (k : ℝ) = k := fun k hk => R.int_exact k (by omega)
  have up : ∀ k : ℕ, k ≤ 250 → ⌈y⌉ ≤ (k : ℤ) → ⌈R.rnd y⌉ ≤ (k : ℤ) := fun k hk h =>
    Int.ceil_le.2 (R.rnd_le (int k hk) (by exact_mod_cast Int.ceil_le.1 h))
  have dn : ∀ k : ℕ, k ≤ 250 → (k : ℤ) < ⌈y⌉ → (k : ℤ) ≤ ⌈R.rnd y⌉ := fun k hk h => by
    have h1 : (k : ℝ) < y := by exact_mod_cast Int.lt_ceil.1 h
    have h2 : (k : ℝ) ≤ R.rnd y := R.le_rnd (int k hk) h1.le
    have h3 : (k : ℝ) ≤ (⌈R.rnd y⌉ : ℝ) := h2.trans (Int.le_ceil _)
    exact_mod_cast h3
  have hc0 : 0 < ⌈y⌉ := Int.ceil_pos.2 hy0
  have a : min 250 (max 5 ⌈R.rnd y⌉) ≤ min 250 (max 5 ⌈y⌉) := by
    rcases le_or_gt ⌈y⌉ 250 with h | h
    · have := up ⌈y⌉.toNat (by omega) (by omega)
      omega
    · omega
  have b : min 250 (max 5 ⌈y⌉) ≤ min 250 (max 5 ⌈R.rnd y⌉) + 1 := by
    rcases le_or_gt ⌈y⌉ 250 with h | h
    · have := dn (⌈y⌉ - 1).toNat (by omega) (by omega)
      omega
    · have := dn 250 le_rfl (by omega)
      omega
  refine ⟨by omega, by omega, fun he => ?_⟩
  have : min 250 (max 5 ⌈R.rnd y⌉) = min 250 (max 5 ⌈y⌉) := by
    rcases le_or_gt ⌈y⌉ 250 with h | h
    · have e : R.rnd y = y := by
        rw [← he]
        have := int ⌈y⌉.toNat (by omega)
        have e2 : ((⌈y⌉.toNat : ℕ) : ℝ) = (⌈y⌉ : ℝ) := by
          have : ((⌈y⌉.toNat : ℕ) : ℤ) = ⌈y⌉ := by omega
          exact_mod_cast congrArg (fun z : ℤ => (z : ℝ)) this
        rwa [e2] at this
      rw [e]
    · have := dn 250 le_rfl (by omega)
      omega
  rw [this]

/-- The float diagonal run with a given burn-in. -/
noncomputable def diagFloat (r : Fl R) (b : ℕ) (xs : List (ι → Fl R)) : DiagState ι (Fl R) :=
  xs.foldl diagUpdate { nSamples := 0, mean := fun _ => 0, var := fun _ => 0, r := r, nBurn := b }

theorem diagFloat_snoc (r : Fl R) (b : ℕ) (xs : List (ι → Fl R)) (x : ι → Fl R) :
    diagFloat r b (xs ++ [x]) = diagUpdate (diagFloat r b xs) x := by simp [diagFloat]

theorem diagFloat_mean (r : Fl R) (b : ℕ) (xs : List (ι → Fl R)) :
    (diagFloat r b xs).r = r ∧ (diagFloat r b xs).nBurn = b ∧ (diagFloat r b xs).nSamples = xs.length ∧
    (diagFloat r b xs).mean = (ewaFloat r b xs).mean := by
  induction xs using List.reverseRecOn with
  | nil => exact ⟨rfl, rfl, rfl, rfl⟩
  | append_singleton xs x ih =>
    obtain ⟨i1, i2, i3, i4⟩ := ih
    obtain ⟨e1, e2, e3⟩ := ewaFloat_const r b xs
    rw [diagFloat_snoc, ewaFloat_snoc]
    unfold diagUpdate ewaUpdate
    simp only []
    by_cases h : xs.length < b
    · rw [if_pos (by rw [i2, i3]; omega), if_pos (by rw [e2, e3]; omega)]
      refine ⟨i1, i2, by show _ + 1 = _; rw [i3]; simp, ?_⟩
      funext i
      show (diagFloat r b xs).mean i + (x i - (diagFloat r b xs).mean i) / (((diagFloat r b xs).nSamples + 1 : ℕ) : Fl R)
        = (ewaFloat r b xs).mean i + (x i - (ewaFloat r b xs).mean i) / (((ewaFloat r b xs).nSamples + 1 : ℕ) : Fl R)
      rw [i3, e3, i4]
    · rw [if_neg (by rw [i2, i3]; omega), if_neg (by rw [e2, e3]; omega)]
      refine ⟨i1, i2, by show _ + 1 = _; rw [i3]; simp, ?_⟩
      funext i
      show (1 - (diagFloat r b xs).r) * (diagFloat r b xs).mean i + (diagFloat r b xs).r * x i
        = (1 - (ewaFloat r b xs).r) * (ewaFloat r b xs).mean i + (ewaFloat r b xs).r * x i
      rw [i1, e1, i4]

/-- C75: in floating point `DiagonalCovariance.location_` and `EwaCovariance.location_` agree to the last bit after any
history (so the bound `C76_ewa_location_error` and the finding `C75_ewa_leaves_range` apply to both). -/
theorem C75_diagonal_location [DecidableEq ι] (p : RParam (Fl R)) (calls : List (Call ι (Fl R))) :
    ((new (diagonalFlCls R ι) p).run calls).location = ((new (ewaFlCls R ι) p).run calls).location := by
  by_cases hne : used p.diff calls = []
  · have aux : ∀ (C : Cls ι (Fl R)) (p : C.Param), used (C.diff p) calls = [] →
        ((new C p).run calls).location = .error .notFitted := by
      intro C p he
      have hs := run_new_state p calls
      rw [show effective (C.diff p) (rowsSinceFit calls []) = [] from he] at hs
      simp [Obj.location, fittedState, hs, Except.map]
    rw [aux (diagonalFlCls R ι) p hne, aux (ewaFlCls R ι) p hne]
  · rw [run_location (diagonalFl_lawful R ι) p calls hne, run_location (ewaFl_lawful R ι) p calls hne]
    exact congrArg Except.ok (diagFloat_mean p.r (ewaBurnNFl p.r) (used p.diff calls)).2.2.2

/-- The squared deviation in floats against the exact one. -/
theorem sq_dev_err {M : ℝ} (hl1 : R.tiny ≤ M) (hl2 : R.tiny ≤ M * M) {r : ℝ} (h0 : 0 < r) (h1 : r ≤ 1) (hru : 80 * R.u ≤ r)
    {x m T : ℝ} (rx : R.rnd x = x) (rm : R.rnd m = m) (hx : |x| ≤ M) (m1 : |T| ≤ M)
    (m2 : |m - T| ≤ 9 * (R.u * (M + 2 * R.tiny)) / r) :
    |R.rnd (R.rnd (x - m) * R.rnd (x - m)) - (x - T) * (x - T)| ≤ 180 * (R.u * (M * M) / r) ∧
    |R.rnd (R.rnd (x - m) * R.rnd (x - m))| ≤ 14 * (M * M) ∧ |(x - T) * (x - T)| ≤ 4 * (M * M) := by
  have hu0 := R.u_nonneg
  have hu := R.u_le
  have hl := R.tiny_nonneg
  have hM : 0 ≤ M := hl.trans hl1
  have hB0 : 0 ≤ M * M := mul_nonneg hM hM
  have hE : 9 * (R.u * (M + 2 * R.tiny)) / r ≤ 27 * (R.u * M) / r := by
    refine div_le_div_of_nonneg_right ?_ h0.le
    have := mul_le_mul_of_nonneg_left hl1 hu0
    linarith
  have hE2 : 27 * (R.u * M) / r ≤ M := by
    rw [div_le_iff₀ h0]
    have := mul_le_mul_of_nonneg_right hru hM
    nlinarith
  have hδ : |x - T| ≤ 2 * M := by
    rw [sub_eq_add_neg]; refine (abs_add_le _ _).trans ?_; rw [abs_neg]; linarith
  have m2' : |m - T| ≤ 27 * (R.u * M) / r := m2.trans hE
  have hxm : |x - m| ≤ 3 * M := by
    rw [show x - m = (x - T) + -(m - T) by ring]
    refine (abs_add_le _ _).trans ?_; rw [abs_neg]; linarith
  have hs := R.sub_err_le rx rm hxm
  have huM : R.u * M ≤ R.u * M / r := by
    rw [le_div_iff₀ h0]; have : 0 ≤ R.u * M := mul_nonneg hu0 hM; nlinarith
  have a1 : |R.rnd (x - m) - (x - T)| ≤ 30 * (R.u * M) / r := by
    rw [show R.rnd (x - m) - (x - T) = (R.rnd (x - m) - (x - m)) + -(m - T) by ring]
    refine (abs_add_le _ _).trans ?_; rw [abs_neg]
    have e3 : 30 * (R.u * M) / r = 3 * (R.u * M / r) + 27 * (R.u * M) / r := by ring
    rw [e3]; linarith
  have a2 : |R.rnd (x - m)| ≤ 27 / 8 * M := by
    rw [show R.rnd (x - m) = (x - m) + (R.rnd (x - m) - (x - m)) by ring]
    refine (abs_add_le _ _).trans ?_
    have := mul_le_mul_of_nonneg_right hu (by positivity : (0:ℝ) ≤ 3 * M)
    linarith
  have hp := Rounding.prod_err a1 a1 a2 hδ
  set d := R.rnd (x - m)
  have hdd : |d * d| ≤ 12 * (M * M) := by
    rw [abs_mul]
    refine (mul_le_mul a2 a2 (abs_nonneg _) (by positivity)).trans ?_
    nlinarith
  have hP := R.err_le hdd
  set P := R.rnd (d * d)
  have hB : R.u * R.tiny ≤ R.u * (M * M) := mul_le_mul_of_nonneg_left hl2 hu0
  have hub0 : 0 ≤ R.u * (M * M) := mul_nonneg hu0 hB0
  have hub : R.u * (M * M) ≤ R.u * (M * M) / r := by rw [le_div_iff₀ h0]; nlinarith
  refine ⟨?_, ?_, ?_⟩
  · rw [show P - (x - T) * (x - T) = (P - d * d) + (d * d - (x - T) * (x - T)) by ring]
    refine ((abs_add_le _ _).trans (add_le_add hP hp)).trans ?_
    have e3 : 27 / 8 * M * (30 * (R.u * M) / r) + 2 * M * (30 * (R.u * M) / r) = (1290 / 8) * (R.u * (M * M) / r) := by ring
    rw [e3]; linarith
  · rw [show P = d * d + (P - d * d) by ring]
    refine ((abs_add_le _ _).trans (add_le_add hdd hP)).trans ?_
    have := mul_le_mul_of_nonneg_right hu (by positivity : 0 ≤ 12 * (M * M) + R.tiny)
    linarith
  · rw [abs_mul]
    refine (mul_le_mul hδ hδ (abs_nonneg _) (by positivity)).trans ?_
    linarith

/-- Invariant of the two diagonal runs. -/
structure DiagErr (M r : ℝ) (n : ℕ) (v V : ℝ) : Prop where
  zero : n = 0 → v = 0 ∧ V = 0
  float : |v| ≤ 14 * (M * M)
  exact : |V| ≤ 4 * (M * M)
  err : |v - V| ≤ 16 * (R.u * (M * M)) * ((n + 1) / 2) + (70 * (R.u * (M * M)) + 180 * (R.u * (M * M) / r))

theorem diag_burn_err {M : ℝ} (hl1 : R.tiny ≤ M) (hl2 : R.tiny ≤ M * M) {r : ℝ} (h0 : 0 < r) {n : ℕ} (hn : n + 1 ≤ R.maxInt)
    {v V q Q : ℝ} (rv : R.rnd v = v) (rq : R.rnd q = q) (h : DiagErr (R := R) M r n v V)
    (hqQ : |q - Q| ≤ 180 * (R.u * (M * M) / r)) (hq : |q| ≤ 14 * (M * M)) (hQ : |Q| ≤ 4 * (M * M)) :
    DiagErr (R := R) M r (n + 1) (R.rnd (v + R.rnd (R.rnd (q - v) / R.rnd ((n + 1 : ℕ) : ℝ)))) (V + (Q - V) / ((n + 1 : ℕ) : ℝ)) := by
  have hu0 := R.u_nonneg
  have hl := R.tiny_nonneg
  have hM : 0 ≤ M := hl.trans hl1
  have hB0 : 0 ≤ M * M := mul_nonneg hM hM
  have hub0 : 0 ≤ R.u * (M * M) := mul_nonneg hu0 hB0
  have hf0 : 0 ≤ R.u * (M * M) / r := div_nonneg hub0 h0.le
  have hub2 : R.u * R.tiny ≤ R.u * (M * M) := mul_le_mul_of_nonneg_left hl2 hu0
  rcases Nat.eq_zero_or_pos n with rfl | hpos
  · obtain ⟨z1, z2⟩ := h.zero rfl
    subst z1; subst z2
    have e : R.rnd (0 + R.rnd (R.rnd (q - 0) / R.rnd ((0 + 1 : ℕ) : ℝ))) = q := by
      rw [sub_zero, rq, show ((0 + 1 : ℕ) : ℝ) = 1 by norm_num, R.rnd_one, div_one, zero_add, rq, rq]
    have e2 : (0 : ℝ) + (Q - 0) / ((0 + 1 : ℕ) : ℝ) = Q := by norm_num
    rw [e, e2]
    refine ⟨fun h => absurd h (by omega), hq, hQ, hqQ.trans ?_⟩
    push_cast
    linarith
  · have h2 : 2 ≤ n + 1 := by omega
    have hc1 : (1 : ℝ) ≤ ((n + 1 : ℕ) : ℝ) := by exact_mod_cast (by omega : 1 ≤ n + 1)
    have hc0 : (0 : ℝ) < ((n + 1 : ℕ) : ℝ) := by linarith
    refine ⟨fun h => absurd h (by omega), ?_, abs_convex hc1 h.exact hQ, ?_⟩
    · have hr := R.welford_between rv rq (R.two_le_nat h2)
      have a := abs_le.1 h.float
      have b := abs_le.1 hq
      exact abs_le.2 ⟨(le_min a.1 b.1).trans hr.1, hr.2.trans (max_le a.2 b.2)⟩
    · have E := R.mean_err h2 hn rv rq h.float hq h.err
      set W := R.rnd (v + R.rnd (R.rnd (q - v) / R.rnd ((n + 1 : ℕ) : ℝ)))
      have hcc : (n : ℝ) = ((n + 1 : ℕ) : ℝ) - 1 := by push_cast; ring
      rw [hcc] at E
      set c : ℝ := ((n + 1 : ℕ) : ℝ)
      rw [show W - (V + (Q - V) / c) = (W - (V + (q - V) / c)) + (q - Q) / c by field_simp; ring]
      have hd : |(q - Q) / c| ≤ 180 * (R.u * (M * M) / r) / c := by
        rw [abs_div, abs_of_pos hc0]; exact div_le_div_of_nonneg_right hqQ hc0.le
      refine ((abs_add_le _ _).trans (add_le_add E hd)).trans ?_
      have k1 : R.u * (14 * (M * M) + 2 * R.tiny) ≤ 16 * (R.u * (M * M)) := by linarith
      set b := R.u * (M * M)
      set f := 180 * (b / r)
      have e4 : 5 * (R.u * (14 * (M * M))) = 70 * b := by simp only [b]; ring
      rw [e4]
      have e3 : (1 - 1 / c) * (16 * b * ((c - 1 + 1) / 2) + (70 * b + f)) + 16 * b + 70 * b / c + f / c
          = 16 * b * ((c + 1) / 2) + (70 * b + f) := by field_simp; ring
      linarith

/-- C76: with `r ≥ 80 u`, each variance reported by `DiagonalCovariance` computed in floats differs from the exact
recency-weighted mean of the squared innovations by at most `360 u M² / r`, however long the stream. -/
theorem C76_diagonal_variance_error [DecidableEq ι] (p : RParam (Fl R)) (h0 : 0 < p.r.val) (h1 : p.r.val ≤ 1) (hru : 80 * R.u ≤ p.r.val)
    (calls : List (Call ι (Fl R))) (c : Matrix ι ι (Fl R)) (M : ℝ)
    (h : ((new (diagonalFlCls R ι) p).run calls).covariance = .ok c) (hb : Bounded M (used p.diff calls))
    (hl1 : R.tiny ≤ M) (hl2 : R.tiny ≤ M * M) (i : ι) :
    |(c i i).val - trackedVar p.r.val (ewaBurnNFl p.r) (vals (used p.diff calls)) i|
      ≤ 360 * (R.u * (M * M)) / p.r.val := by
  obtain ⟨hne, rfl⟩ := run_covariance_inv (diagonalFl_lawful R ι) p calls c h
  change used p.diff calls ≠ [] at hne
  have hM : 0 ≤ M := R.tiny_nonneg.trans hl1
  have hu0 := R.u_nonneg
  have hu := R.u_le
  have hl := R.tiny_nonneg
  have hB0 : 0 ≤ M * M := mul_nonneg hM hM
  obtain ⟨g1, g2, g3⟩ := ewaBurnNFl_le h0 h1
  rw [← trackedVar_eq _ _ (by omega) _ (vals_ne hne)]
  set b := ewaBurnNFl p.r with hbdef
  set r := p.r.val with hr
  have hub0 : 0 ≤ R.u * (M * M) := mul_nonneg hu0 hB0
  have hub2 : R.u * R.tiny ≤ R.u * (M * M) := mul_le_mul_of_nonneg_left hl2 hu0
  have hub : R.u * (M * M) ≤ R.u * (M * M) / r := by rw [le_div_iff₀ h0]; nlinarith
  have inv : ∀ xs : List (ι → Fl R), Bounded M xs →
      ((xs.length ≤ b → DiagErr (R := R) M r xs.length ((diagFloat p.r b xs).var i).val ((diagExact r b (vals xs)).var i)) ∧
      |(diagExact r b (vals xs)).var i| ≤ 4 * (M * M) ∧
      |((diagFloat p.r b xs).var i).val - (diagExact r b (vals xs)).var i| ≤ 330 * (R.u * (M * M)) / r) := by
    intro xs hxs
    have fin : ∀ (n : ℕ) (v V : ℝ), n ≤ b → DiagErr (R := R) M r n v V → |v - V| ≤ 330 * (R.u * (M * M)) / r := by
      intro n v V hnb hD
      refine hD.err.trans ?_
      have hnr : (n : ℝ) ≤ 5 / r := (by exact_mod_cast hnb : (n : ℝ) ≤ b).trans g3
      have h5 : (n + 1 : ℝ) / 2 ≤ 5 / r := by
        have : (5 : ℝ) ≤ 5 / r := by rw [le_div_iff₀ h0]; linarith
        linarith
      have := mul_le_mul_of_nonneg_left h5 (by linarith : 0 ≤ 16 * (R.u * (M * M)))
      have e1 : 16 * (R.u * (M * M)) * (5 / r) = 80 * (R.u * (M * M) / r) := by ring
      have e2 : 330 * (R.u * (M * M)) / r = 330 * (R.u * (M * M) / r) := by ring
      rw [e2]; linarith
    induction xs using List.reverseRecOn with
    | nil =>
      have z : DiagErr (R := R) M r 0 ((diagFloat p.r b ([] : List (ι → Fl R))).var i).val ((diagExact r b (vals ([] : List (ι → Fl R)))).var i) := by
        refine ⟨fun _ => ⟨rfl, rfl⟩, ?_, ?_, ?_⟩
        · show |(0 : ℝ)| ≤ _; rw [abs_zero]; positivity
        · show |(0 : ℝ)| ≤ _; rw [abs_zero]; positivity
        · show |(0 : ℝ) - 0| ≤ _; rw [sub_zero, abs_zero]; positivity
      exact ⟨fun _ => z, z.exact, fin 0 _ _ (by omega) z⟩
    | append_singleton xs x ih =>
      have hb' : Bounded M xs := fun y hy => hxs y (List.mem_append_left _ hy)
      obtain ⟨i0, i1, i2⟩ := ih hb'
      have hx : |(x i).val| ≤ M := hxs x (by simp) i
      have hlen : (vals xs).length = xs.length := by simp [vals]
      obtain ⟨m1, m2⟩ := ewa_mean_err hM h0 h1 (by linarith) g3 g2 xs hb' i
      obtain ⟨q1, q2, q3⟩ := sq_dev_err hl1 hl2 h0 h1 hru (x i).rep ((ewaFloat p.r b xs).mean i).rep hx m1 m2
      obtain ⟨f1, f2, f3, f4⟩ := diagFloat_mean p.r b xs
      set q := R.rnd (R.rnd ((x i).val - ((ewaFloat p.r b xs).mean i).val) * R.rnd ((x i).val - ((ewaFloat p.r b xs).mean i).val)) with hq
      by_cases hl' : (xs ++ [x]).length ≤ b
      · have hl'' : xs.length + 1 ≤ b := by simpa using hl'
        have e1 : ((diagFloat p.r b (xs ++ [x])).var i).val = R.rnd (((diagFloat p.r b xs).var i).val
            + R.rnd (R.rnd (q - ((diagFloat p.r b xs).var i).val) / R.rnd ((xs.length + 1 : ℕ) : ℝ))) := by
          rw [diagFloat_snoc]; unfold diagUpdate; simp only [f1, f2, f3, f4, if_pos hl'']; rfl
        have e2 := diagExact_burn r b (vals xs) (fun k => (x k).val) (by rw [hlen]; exact hl'') i
        rw [hlen] at e2
        rw [vals_snoc, e1, e2]
        have key := diag_burn_err hl1 hl2 h0 (n := xs.length) (by have := R.maxInt_ge; omega) ((diagFloat p.r b xs).var i).rep
          (R.idem _) (i0 (by omega)) q1 q2 q3
        refine ⟨fun _ => by rw [List.length_append, List.length_singleton]; exact key, key.exact, fin _ _ _ hl'' key⟩
      · have hbl : b ≤ xs.length := by simp at hl'; omega
        have e1 : ((diagFloat p.r b (xs ++ [x])).var i).val = R.rnd (R.rnd (R.rnd (1 - r) * ((diagFloat p.r b xs).var i).val)
            + R.rnd (r * q)) := by
          rw [diagFloat_snoc]; unfold diagUpdate; simp only [f1, f2, f3, f4, if_neg (show ¬ xs.length + 1 ≤ b by omega)]; rfl
        have e2 := diagExact_post r b (vals xs) (fun k => (x k).val) (by rw [hlen]; exact hbl) i
        rw [vals_snoc, e1, e2]
        refine ⟨fun h => absurd h hl', ?_, ?_⟩
        · refine (abs_add_le _ _).trans ?_
          rw [abs_mul, abs_mul, abs_of_pos h0, abs_of_nonneg (by linarith : 0 ≤ 1 - r)]
          have t1 := mul_le_mul_of_nonneg_left i1 (by linarith : 0 ≤ 1 - r)
          have t2 := mul_le_mul_of_nonneg_left q3 h0.le
          linarith
        · refine (R.blend_err p.r.rep h0.le h1 i2 i1 q1 q2).trans ?_
          set B := M * M
          set e := 330 * (R.u * B) / r with he
          have he0 : 0 ≤ e := by positivity
          have hre : r * e = 330 * (R.u * B) := by rw [he]; field_simp
          have k0 : r * (180 * (R.u * B / r)) = 180 * (R.u * B) := by field_simp
          have k1 : (1 - r) * (1 + 4 * R.u) * e ≤ (1 - 19 / 20 * r) * e := by
            refine mul_le_mul_of_nonneg_right ?_ he0
            have : 0 ≤ R.u * r := mul_nonneg hu0 h0.le
            nlinarith
          have k2 : 4 * R.u * ((1 - r) * (4 * B) + r * (14 * B) + R.tiny) ≤ 60 * (R.u * B) := by
            have t : R.u * B * r ≤ R.u * B * 1 := mul_le_mul_of_nonneg_left h1 hub0
            linarith only [t, hub2]
          have k3 : (1 - 19 / 20 * r) * e = e - 19 / 20 * (330 * (R.u * B)) := by rw [← hre]; ring
          have k4 : (1 - p.r.val) * (1 + 4 * R.u) * e + p.r.val * (180 * (R.u * B / r)) + 4 * R.u * ((1 - p.r.val) * (4 * B) + p.r.val * (14 * B) + R.tiny) = (1 - r) * (1 + 4 * R.u) * e + r * (180 * (R.u * B / r)) + 4 * R.u * ((1 - r) * (4 * B) + r * (14 * B) + R.tiny) := by rw [← hr]
          linarith
  obtain ⟨-, k3, k1⟩ := inv _ hb
  have e : (toSymmetric (Matrix.diagonal (diagFloat p.r b (used p.diff calls)).var) i i)
      = toSymmetric (Matrix.of fun _ _ : Unit => (diagFloat p.r b (used p.diff calls)).var i) () () := by
    unfold toSymmetric; simp
  show |(toSymmetric (Matrix.diagonal (diagFloat p.r b (used p.diff calls)).var) i i).val - _| ≤ _
  rw [e]
  refine (sym_err hM hl2 (a := Matrix.of fun _ _ : Unit => (diagFloat p.r b (used p.diff calls)).var i) (i := ()) (j := ()) k1 k1 k3).trans ?_
  set B := M * M
  have t1 : R.u * (330 * (R.u * B) / r) ≤ 330 / 80 * (R.u * B) := by
    rw [mul_div_assoc', div_le_iff₀ h0]
    have := mul_le_mul_of_nonneg_right hru hub0
    nlinarith
  have e1 : 330 * (R.u * B) / r = 330 * (R.u * B / r) := by ring
  have e2 : 360 * (R.u * B) / r = 360 * (R.u * B / r) := by ring
  rw [e2]
  rw [e1] at t1 ⊢
  linarith

/-- The hypotheses are met: two doubles columns, `r = 0.05`, three rows; and a rate whose burn-in is exact. -/
example : ∃ c, ((new (diagonalFlCls Rounding.double (Fin 2)) ⟨r005, false⟩).run [.partialFit (.batch demoFl)]).covariance = .ok c ∧
    ∀ i, |(c i i).val - trackedVar r005.val (ewaBurnNFl r005) (vals demoFl) i| ≤ 360 * (Rounding.double.u * (3 * 3)) / r005.val := by
  have hne : used false [Call.partialFit (.batch demoFl)] ≠ [] := by rw [demoFl_used _ rfl]; simp [demoFl]
  have h2 := run_covariance (diagonalFl_lawful Rounding.double (Fin 2)) ⟨r005, false⟩ [.partialFit (.batch demoFl)] hne
  have ht := double_tiny_le
  exact ⟨_, h2, fun i => C76_diagonal_variance_error ⟨r005, false⟩ r005_pos r005_le r005_ge _ _ 3 h2 demoFl_bounded
    (by linarith) (by linarith) i⟩

example : ewaBurnNFl r005 ≤ (min 250 (max 5 ⌈1 / r005.val⌉)).toNat := (C76_burn_in r005 r005_pos).1

end Precise
