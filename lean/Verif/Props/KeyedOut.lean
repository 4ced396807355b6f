import Verif.Props.DynUniverse

/-!
# C62: the dict-of-dicts output of the keyed adapters
-/

set_option linter.all false

open Matrix

namespace Precise

open Spec

variable {Key : Type} [DecidableEq Key] {P : Proto}

/-! ### dict comprehensions -/

theorem dictSet_lookup {α : Type} (d : List (Key × α)) (k k' : Key) (v : α) :
    (dictSet d k v).lookup k' = if k' = k then some v else d.lookup k' := by
  unfold dictSet
  split
  · rename_i hk
    induction d with
    | nil => simp at hk
    | cons a d ih =>
      obtain ⟨ka, va⟩ := a
      by_cases e : ka = k
      · subst e
        by_cases e' : k' = ka
        · simp [List.lookup_cons, e']
        · have hb : (k' == ka) = false := by simpa using e'
          simp only [List.map_cons, if_true, List.lookup_cons, hb, if_neg e']
          by_cases hk' : ka ∈ d.map Prod.fst
          · have := ih hk'
            rw [if_neg e'] at this
            exact this
          · have : d.map (fun kv => if kv.1 = ka then (ka, v) else kv) = d := by
              conv_rhs => rw [← List.map_id d]
              apply List.map_congr_left
              intro kv hkv
              rw [if_neg]
              · rfl
              · intro e2
                exact hk' (e2 ▸ List.mem_map_of_mem (f := Prod.fst) hkv)
            rw [this]
      · have hk' : k ∈ d.map Prod.fst := by
          rw [List.map_cons, List.mem_cons] at hk
          rcases hk with h | h
          · exact absurd h.symm e
          · exact h
        simp only [List.map_cons, if_neg e, List.lookup_cons]
        by_cases e2 : k' = ka
        · have hb : (k' == ka) = true := by simpa using e2
          simp only [hb]
          rw [if_neg (by intro e3; exact e (e2 ▸ e3))]
        · have hb : (k' == ka) = false := by simpa using e2
          simp only [hb]
          exact ih hk'
  · rename_i hk
    have : ∀ l : List (Key × α), k ∉ l.map Prod.fst →
        (l ++ [(k, v)]).lookup k' = if k' = k then some v else l.lookup k' := by
      intro l
      induction l with
      | nil =>
        intro _
        by_cases e : k' = k
        · simp [List.lookup_cons, e]
        · have hb : (k' == k) = false := by simpa using e
          simp [List.lookup_cons, hb, e]
      | cons a l ih =>
        intro hl
        obtain ⟨ka, va⟩ := a
        simp only [List.map_cons, List.mem_cons, not_or] at hl
        rw [List.cons_append, List.lookup_cons, List.lookup_cons]
        by_cases e2 : k' = ka
        · have hb : (k' == ka) = true := by simpa using e2
          simp only [hb]
          rw [if_neg (by intro e3; exact hl.1 (by rw [← e3, e2]))]
        · have hb : (k' == ka) = false := by simpa using e2
          simp only [hb]
          exact ih hl.2
    exact this d hk

theorem foldl_dictSet_lookup {α : Type} {n : ℕ} (key : Fin n → Key) (f : Fin n → α) (is : List (Fin n)) (d : List (Key × α))
    (hs : is.Pairwise (· < ·)) (i : Fin n) (hi : i ∈ is) (hlast : ∀ j, i < j → key j ≠ key i) :
    (is.foldl (fun d i => dictSet d (key i) (f i)) d).lookup (key i) = some (f i) := by
  induction is generalizing d with
  | nil => simp at hi
  | cons a is ih =>
    rw [List.pairwise_cons] at hs
    by_cases h : i ∈ is
    · exact ih _ hs.2 h
    · have ha : i = a := by
        rcases List.mem_cons.mp hi with e | e
        · exact e
        · exact absurd e h
      subst ha
      rw [List.foldl_cons]
      have : ∀ (js : List (Fin n)) (d : List (Key × α)), (∀ j ∈ js, i < j) →
          (js.foldl (fun d i => dictSet d (key i) (f i)) d).lookup (key i) = d.lookup (key i) := by
        intro js
        induction js with
        | nil => intro d _; rfl
        | cons j js ih2 =>
          intro d hj
          rw [List.foldl_cons, ih2 _ fun x hx => hj x (by simp [hx]), dictSet_lookup,
            if_neg (hlast j (hj j (by simp))).symm]
      rw [this is _ hs.1, dictSet_lookup, if_pos rfl]

/-- `{k: f(i) for i, k in enumerate(keys)}` read at a key gives the value of that key's last position. -/
theorem dictComp_lookup {α : Type} (ks : List Key) (f : Fin ks.length → α) (i : Fin ks.length)
    (hlast : ∀ j, i < j → ks.get j ≠ ks.get i) : (dictComp ks f).lookup (ks.get i) = some (f i) :=
  foldl_dictSet_lookup ks.get f _ [] (List.pairwise_lt_finRange _) i (List.mem_finRange i) hlast

theorem dictComp_keys {α : Type} (ks : List Key) (f : Fin ks.length → α) (h : ks.Nodup) :
    (dictComp ks f).map Prod.fst = ks := by
  have gen : ∀ (is : List (Fin ks.length)) (d : List (Key × α)), is.Nodup → (∀ i ∈ is, ks.get i ∉ d.map Prod.fst) →
      (is.foldl (fun d i => dictSet d (ks.get i) (f i)) d).map Prod.fst = d.map Prod.fst ++ is.map ks.get := by
    intro is
    induction is with
    | nil => intro d _ _; simp
    | cons i is ih =>
      intro d hnd hd
      rw [List.nodup_cons] at hnd
      have e : dictSet d (ks.get i) (f i) = d ++ [(ks.get i, f i)] := if_neg (hd i (by simp))
      rw [List.foldl_cons, e, ih _ hnd.2]
      · simp
      · intro j hj hm
        simp only [List.map_append, List.map_cons, List.map_nil, List.mem_append, List.mem_singleton] at hm
        rcases hm with hm | hm
        · exact hd j (by simp [hj]) hm
        · have : j = i := List.nodup_iff_injective_get.mp h hm
          exact hnd.1 (this ▸ hj)
  have := gen (List.finRange ks.length) [] (List.nodup_finRange _) (by simp)
  rw [dictComp, this]
  simp only [List.map_nil, List.nil_append]
  rw [← List.ofFn_eq_map]
  exact List.ofFn_get ks

/-! ### C62 -/

/-- C62: for distinct names, the dict of dicts lists the names in universe order, at both levels, and
`out[ki][kj]` is the matrix entry. -/
theorem C62_dict_of_dicts (m : KeyedMat Key) (h : m.1.Nodup) :
    (asDictOfDicts m).map Prod.fst = m.1 ∧
    ∀ i j, ∃ row, (asDictOfDicts m).lookup (m.1.get i) = some row ∧ row.map Prod.fst = m.1 ∧
      row.lookup (m.1.get j) = some (m.2 i j) := by
  have hne : ∀ i j : Fin m.1.length, i < j → m.1.get j ≠ m.1.get i := fun i j hij e =>
    absurd (List.nodup_iff_injective_get.mp h e) hij.ne'
  refine ⟨dictComp_keys _ _ h, fun i j => ⟨_, dictComp_lookup _ _ i (hne i), dictComp_keys _ _ h, ?_⟩⟩
  exact dictComp_lookup m.1 (fun j => m.2 i j) j (hne j)

/-- C62: for repeated names (only possible when the caller lists a name twice in `keys=`) the last position wins. -/
theorem C62_repeated_names (m : KeyedMat Key) (i j : Fin m.1.length) (hi : ∀ a, i < a → m.1.get a ≠ m.1.get i)
    (hj : ∀ a, j < a → m.1.get a ≠ m.1.get j) :
    ∃ row, (asDictOfDicts m).lookup (m.1.get i) = some row ∧ row.lookup (m.1.get j) = some (m.2 i j) :=
  ⟨_, dictComp_lookup _ _ i hi, dictComp_lookup m.1 (fun j => m.2 i j) j hj⟩

/-- C62: a `FixedUniverse` that learns its universe from the first observation, and a `DynamicUniverse`, report
distinct names, so `C62_dict_of_dicts` applies to their `covariance_` and `correlation_`. -/
theorem C62_names_distinct (impute : String) (X : List (KDict Key)) (L : Lapack) (mu ms : ℤ) :
    (∀ m, ((FixedU.new P none impute).learnMany X).out.arr .all = .ok m → m.1.Nodup) ∧
    (∀ m, (((DynU.new P mu ms).learnMany X).out L).arr .all = .ok m → m.1.Nodup) := by
  constructor
  · intro m hm
    by_cases hX : X = []
    · subst hX; cases hm
    · obtain ⟨-, ys, -, hc, -⟩ := C42_imputation (P := P) impute none X hX
      have hm' : ((FixedU.new P none impute).learnMany X).covArray .all = .ok m := hm
      rw [hc] at hm'
      have hk : m.1 = universeOf none X := by
        cases hcov : (wrapped P (universeOf none X).length ys).covariance with
        | error e => rw [hcov] at hm'; cases hm'
        | ok c => rw [hcov] at hm'; cases hm'; rfl
      rw [hk]
      cases X with
      | nil => exact absurd rfl hX
      | cons x X => exact x.nodup
  · intro m hm
    have hm' : ((DynU.new P mu ms).learnMany X).covArray L .all = .ok m := hm
    unfold DynU.covArray DynU.resolveKeys at hm'
    cases hD : ((DynU.new P mu ms).learnMany X).x with
    | none => simp only [hD] at hm'; cases hm'
    | some x =>
      simp only [hD] at hm'
      cases hm'
      exact x.nodup

/-- C62: with a PSD covariance (always so for `DynamicUniverse`, C46) the keyed correlation has exact ones on the
diagonal, is symmetric, has entries in [-1, 1] and off the diagonal equals `cov / (sᵢ sⱼ + 1e-12)`. -/
theorem C62_correlation (A : KeyedOut Key) (q : Query Key) (m r : KeyedMat Key) (hm : A.arr q = .ok m) (hp : PSD m.2)
    (hr : A.getCorr q = .ok r) :
    ∃ R : Matrix (Fin m.1.length) (Fin m.1.length) ℝ, r = ⟨m.1, R⟩ ∧ Symm R ∧ (∀ i, R i i = 1) ∧ (∀ i j, |R i j| ≤ 1) ∧
      (∀ i j, i ≠ j → |R i j| < 1 ∧
        R i j = m.2 i j / (Real.sqrt (m.2 i i) * Real.sqrt (m.2 j j) + 1 / 10 ^ 12)) := by
  have e : r = ⟨m.1, corrUnitDiag m.2⟩ := by
    unfold KeyedOut.getCorr at hr; rw [hm] at hr; cases hr; rfl
  have hE := EPS_pos
  have hform : ∀ i j, i ≠ j → corrUnitDiag m.2 i j
      = m.2 i j / (Real.sqrt (m.2 i i) * Real.sqrt (m.2 j j) + EPS) := by
    intro i j hij
    simp only [corrUnitDiag, of_apply, if_neg hij, covToCorr]
    rw [Real.sqrt_mul (hp.diag_nonneg j), mul_comm (Real.sqrt (m.2 j j))]
  have hlt : ∀ i j, i ≠ j → |corrUnitDiag m.2 i j| < 1 := by
    intro i j hij
    have hs : 0 ≤ Real.sqrt (m.2 i i) * Real.sqrt (m.2 j j) := mul_nonneg (Real.sqrt_nonneg _) (Real.sqrt_nonneg _)
    rw [hform i j hij, abs_div, abs_of_pos (by linarith : 0 < Real.sqrt (m.2 i i) * Real.sqrt (m.2 j j) + EPS),
      div_lt_one (by linarith)]
    have : |m.2 i j| ≤ Real.sqrt (m.2 i i) * Real.sqrt (m.2 j j) := by
      rw [← Real.sqrt_mul (hp.diag_nonneg i)]
      refine Real.le_sqrt_of_sq_le ?_
      rw [sq_abs, pow_two]
      exact hp.entry_sq_le i j
    linarith
  have hone : ∀ i, corrUnitDiag m.2 i i = 1 := fun i => by simp [corrUnitDiag]
  refine ⟨_, e, ?_, hone, ?_, fun i j hij => ⟨hlt i j hij, hform i j hij⟩⟩
  · intro i j
    by_cases hij : i = j
    · subst hij; rfl
    · rw [hform i j hij, hform j i (Ne.symm hij), hp.1 i j, mul_comm (Real.sqrt (m.2 i i))]
  · intro i j
    by_cases hij : i = j
    · subst hij; rw [hone i]; simp
    · exact (hlt i j hij).le

/-- C62: `covariance_` and `correlation_` end to end. If `cov_array()` raises, both raise the same error. If it returns a matrix over
distinct names, both are dicts of dicts over exactly those names in that order; `covariance_[ki][kj]` is the entry of
`get_cov()`, `correlation_[ki][kj]` that of `get_corr()`; for a PSD matrix `correlation_[ki][ki]` is exactly 1. -/
theorem C62_outputs (A : KeyedOut Key) :
    (∀ e, A.arr .all = .error e → A.covariance = .error e ∧ A.correlation = .error e ∧ A.getCov .all = .error e ∧ A.getCorr .all = .error e) ∧
    (∀ m, A.arr .all = .ok m → m.1.Nodup →
      A.getCov .all = .ok m ∧
      ∃ (R : Matrix (Fin m.1.length) (Fin m.1.length) ℝ) (cov corr : List (Key × List (Key × ℝ))), A.getCorr .all = .ok ⟨m.1, R⟩ ∧
        A.covariance = .ok cov ∧ A.correlation = .ok corr ∧ cov.map Prod.fst = m.1 ∧ corr.map Prod.fst = m.1 ∧
        (∀ i j, (∃ row, cov.lookup (m.1.get i) = some row ∧ row.map Prod.fst = m.1 ∧ row.lookup (m.1.get j) = some (m.2 i j)) ∧
          (∃ row, corr.lookup (m.1.get i) = some row ∧ row.map Prod.fst = m.1 ∧ row.lookup (m.1.get j) = some (R i j))) ∧
        (PSD m.2 → ∀ i, R i i = 1)) := by
  constructor
  · intro e h
    refine ⟨?_, ?_, h, ?_⟩
    · unfold KeyedOut.covariance; rw [h]; rfl
    · unfold KeyedOut.correlation; rw [h]; rfl
    · unfold KeyedOut.getCorr; rw [h]; rfl
  · intro m h hn
    refine ⟨h, corrUnitDiag m.2, asDictOfDicts m, asDictOfDicts ⟨m.1, corrUnitDiag m.2⟩, ?_, ?_, ?_, ?_, ?_, ?_, ?_⟩
    · unfold KeyedOut.getCorr; rw [h]; rfl
    · unfold KeyedOut.covariance; rw [h]; rfl
    · unfold KeyedOut.correlation; rw [h]; rfl
    · exact (C62_dict_of_dicts m hn).1
    · exact (C62_dict_of_dicts ⟨m.1, corrUnitDiag m.2⟩ hn).1
    · exact fun i j => ⟨(C62_dict_of_dicts m hn).2 i j, (C62_dict_of_dicts ⟨m.1, corrUnitDiag m.2⟩ hn).2 i j⟩
    · intro _ i; simp [corrUnitDiag]

/-- C62 (violation): even so, the keyed correlation of a PSD covariance need not be PSD, when variances are near
1e-16: the regularized entries and the forced unit diagonal do not fit together. -/
theorem C62_correlation_not_psd :
    ∃ c : Matrix (Fin 3) (Fin 3) ℝ, PSD c ∧ ¬ PSD (corrUnitDiag c) := by
  refine ⟨outer ![1 / 10 ^ 8, 1 / 10 ^ 8, 1] ![1 / 10 ^ 8, 1 / 10 ^ 8, 1], psd_outer _, fun h => ?_⟩
  have h1 := h.2 ![1, 1, -1]
  have s0 : Real.sqrt ((1 / 10 ^ 8 * (1 / 10 ^ 8)) * (1 / 10 ^ 8 * (1 / 10 ^ 8))) = 1 / 10 ^ 8 * (1 / 10 ^ 8) :=
    Real.sqrt_mul_self (by norm_num)
  have s1 : Real.sqrt ((1 / 10 ^ 8 * (1 / 10 ^ 8)) * (1 * 1)) = 1 / 10 ^ 8 := by
    rw [mul_one, mul_one]; exact Real.sqrt_mul_self (by norm_num)
  have s2 : Real.sqrt ((1 * 1) * (1 / 10 ^ 8 * (1 / 10 ^ 8))) = 1 / 10 ^ 8 := by
    rw [one_mul, one_mul]; exact Real.sqrt_mul_self (by norm_num)
  rw [quad_expand] at h1
  have d02 : (0 : Fin 3) ≠ 2 := by decide
  have d12 : (1 : Fin 3) ≠ 2 := by decide
  have d20 : (2 : Fin 3) ≠ 0 := by decide
  have d21 : (2 : Fin 3) ≠ 1 := by decide
  simp only [Fin.sum_univ_three, corrUnitDiag, covToCorr, outer, of_apply, EPS] at h1
  simp only [Matrix.cons_val_zero, Matrix.cons_val_one, Matrix.cons_val, s0, s1, s2, if_neg d02, if_neg d12, if_neg d20, if_neg d21] at h1
  norm_num at h1

/-- Non-vacuity: a two-name matrix and the dict of dicts it becomes. -/
example : ∃ row, (asDictOfDicts (⟨["a", "b"], !![1, 2; 3, 4]⟩ : KeyedMat String)).lookup "b" = some row ∧
    row.lookup "a" = some 3 := by
  obtain ⟨row, h1, -, h2⟩ := (C62_dict_of_dicts (⟨["a", "b"], !![1, 2; 3, 4]⟩ : KeyedMat String) (by decide)).2 1 0
  exact ⟨row, h1, h2⟩

end Precise
