import Verif.Props.Keyed
import Verif.Props.Ewa

/-!
# C119: what imputation does to the estimates of a FixedUniverse

`((FixedU.new P keys impute).learnMany X).covArray .all` is `cov_array()` after `update` on every dict of `X`.
-/

set_option linter.all false

namespace Precise

open Spec Obj

variable {Key : Type} [DecidableEq Key]

/-- `EwaCovariance(r)` (the default of the adapters) as the wrapped estimator. -/
noncomputable def ewaProto (r : ℝ) : Proto := { cls := fun d => ewaCls (Fin d) ℝ, par := fun _ => ⟨r, false⟩ }

/-- An estimator whose mean moves by `a n` towards row number `n + 1` and whose covariance is `s n` times the previous
one plus `t n` times the outer product of the deviation from the previous mean. -/
structure Moves (P : Proto) (a s t : ℕ → ℝ) : Prop where
  first : ∀ d (y : Fin d → ℝ), (wrapped P d [y]).location = .ok y ∧ (wrapped P d [y]).covariance = .ok 0
  next : ∀ d (ys : List (Fin d → ℝ)), ys ≠ [] → ∃ m c, (wrapped P d ys).location = .ok m ∧ (wrapped P d ys).covariance = .ok c ∧
    ∀ y, (wrapped P d (ys ++ [y])).location = .ok (fun i => m i + a ys.length * (y i - m i)) ∧
      (wrapped P d (ys ++ [y])).covariance = .ok (Matrix.of fun i j => s ys.length * c i j + t ys.length * ((y i - m i) * (y j - m j)))

theorem emp_moves : Moves empProto (fun n => 1 / ((n : ℝ) + 1)) (fun n => (n : ℝ) / (n + 1)) (fun n => (n : ℝ) / (n + 1) ^ 2) where
  first d y := by
    have := empProto_cov [y] (by simp)
    refine ⟨by rw [this.2]; congr 1; funext i; simp [meanOf], by rw [this.1]; congr 1; ext i j; simp [covOf, meanOf]⟩
  next d ys h := by
    refine ⟨meanOf ys, covOf ys, (empProto_cov ys h).2, (empProto_cov ys h).1, fun y => ?_⟩
    have h' : ys ++ [y] ≠ [] := by simp
    have := empProto_cov (ys ++ [y]) h'
    rw [this.1, this.2]
    constructor
    · congr 1
      rw [← empFold_mean h', empFold_snoc, empUpdate_mean, empFold_n, empFold_mean h]
      funext i; ring
    · congr 1
      rw [← empFold_cov h', empFold_snoc, empUpdate_cov, empFold_n, empFold_mean h, empFold_cov h]
      ext i j
      simp [outer]

theorem ewaProto_attrs (r : ℝ) {d : ℕ} (ys : List (Fin d → ℝ)) (h : ys ≠ []) :
    (wrapped (ewaProto r) d ys).location = .ok (ewaFold r ys).mean ∧
    (wrapped (ewaProto r) d ys).covariance = .ok (ewaFold r ys).cov := by
  have hu : used (false : Bool) (feedCalls ys) = ys := used_feedCalls ys
  have := ewa_attrs (ι := Fin d) (K := ℝ) ⟨r, false⟩ (feedCalls ys) (by rw [hu]; exact h)
  simp only [hu] at this
  exact this

theorem ewa_moves (r : ℝ) (hr : r ≠ 0) : Moves (ewaProto r)
    (fun n => if n < ewaBurnN r then 1 / ((n : ℝ) + 1) else r)
    (fun n => if n < ewaBurnN r then (n : ℝ) / (n + 1) else 1 - r)
    (fun n => if n < ewaBurnN r then (n : ℝ) / (n + 1) ^ 2 else r) where
  first d y := by
    have h5 := (C19_burn_length_any r hr).2.2.1
    have := ewaProto_attrs r [y] (by simp)
    rw [ewaFold_burn _ _ (by simp; omega), empFold_mean (by simp), empFold_cov (by simp)] at this
    refine ⟨by rw [this.1]; congr 1; funext i; simp [meanOf], by rw [this.2]; congr 1; ext i j; simp [covOf, meanOf]⟩
  next d ys h := by
    have h1 := ewaProto_attrs r ys h
    refine ⟨_, _, h1.1, h1.2, fun y => ?_⟩
    have h2 := ewaProto_attrs r (ys ++ [y]) (by simp)
    have c1 := ewaFold_r r ys
    have c2 := ewaFold_nBurn r ys
    have c3 := ewaFold_n r ys
    rw [h2.1, h2.2, ewaFold_snoc, ewaUpdate]
    by_cases hb : ys.length < ewaBurnN r
    · rw [if_pos (by rw [c2, c3]; exact hb)]
      simp only [hb, if_true, ewaBurnStep, empUpdate_mean, empUpdate_cov, c3]
      constructor
      · congr 1; funext i; ring
      · congr 1 <;> (ext i j; simp [outer])
    · rw [if_neg (by rw [c2, c3]; exact hb)]
      simp only [hb, if_false, ewaBlend, c1]
      constructor
      · congr 1; funext i; ring
      · congr 1 <;> (ext i j; simp [outer])

/-! ## One observation -/

variable {P : Proto}

/-- The run of the adapter, with the remembered values. -/
theorem fixed_run' (impute : String) (keys : Option (List Key)) (X : List (KDict Key)) (hX : X ≠ []) :
    ∃ ys last, FixedU.learnMany (FixedU.new P keys impute) X = ⟨impute, .live (universeOf keys X) (wrapped P _ ys) last⟩ ∧
      ys.length = X.length ∧ ∀ i, last i = lastSeen X ((universeOf keys X).get i) := by
  induction X using List.reverseRecOn with
  | nil => exact absurd rfl hX
  | append_singleton X x ih =>
    by_cases h : X = []
    · subst h
      have e : ∀ ks : List Key, FixedU.updateLive impute ks (P.make ks.length) (fun _ => 0) x
          = .live ks (wrapped P _ [FixedU.fillRow impute ks (P.make ks.length) (fun _ => 0) x]) (FixedU.newLast ks (fun _ => 0) x) := by
        intro ks; rfl
      have e2 : FixedU.learnMany (FixedU.new P keys impute) ([] ++ [x])
          = ⟨impute, FixedU.updateLive impute (universeOf keys ([] ++ [x])) (P.make _) (fun _ => 0) x⟩ := by
        cases keys <;> rfl
      refine ⟨_, _, by rw [e2, e], by simp, fun i => ?_⟩
      rw [lastSeen_snoc]; rfl
    · obtain ⟨ys, last, e, hl, hlast⟩ := ih h
      have hu : universeOf keys (X ++ [x]) = universeOf keys X := by
        cases X with
        | nil => exact absurd rfl h
        | cons z X => rfl
      rw [hu]
      refine ⟨ys ++ [FixedU.fillRow impute _ (wrapped P _ ys) last x], FixedU.newLast _ last x, ?_, by simp [hl], fun i => ?_⟩
      · rw [wrapped_snoc]
        have : FixedU.learnMany (FixedU.new P keys impute) (X ++ [x]) = (FixedU.learnMany (FixedU.new P keys impute) X).update x := by
          simp [FixedU.learnMany]
        rw [this, e]; rfl
      · rw [lastSeen_snoc]; unfold FixedU.newLast; rw [hlast]

theorem universeOf_append (keys : Option (List Key)) (X Y : List (KDict Key)) (h : X ≠ []) : universeOf keys (X ++ Y) = universeOf keys X := by
  cases X with
  | nil => exact absurd rfl h
  | cons z X => rfl

/-- The rows an adapter feeds during `Y`, after it has been fed `ys` during `X`. -/
theorem fixed_more (impute : String) (ks : List Key) (ys : List (Fin ks.length → ℝ)) (last : Fin ks.length → ℝ) (x : KDict Key) :
    (⟨impute, .live ks (wrapped P _ ys) last⟩ : FixedU P Key).update x
      = ⟨impute, .live ks (wrapped P _ (ys ++ [FixedU.fillRow impute ks (wrapped P _ ys) last x])) (FixedU.newLast ks last x)⟩ := by
  rw [wrapped_snoc]; rfl

theorem covArray_live (impute : String) (ks : List Key) (est : Obj (P.cls ks.length)) (last : Fin ks.length → ℝ)
    (c : Matrix (Fin ks.length) (Fin ks.length) ℝ) (h : est.covariance = .ok c) :
    (⟨impute, .live ks est last⟩ : FixedU P Key).covArray .all = .ok ⟨ks, c⟩ := by
  unfold FixedU.covArray
  simp only []
  rw [h]; rfl

theorem covArray_live_inv {impute : String} {ks : List Key} {est : Obj (P.cls ks.length)} {last : Fin ks.length → ℝ}
    {c : Matrix (Fin ks.length) (Fin ks.length) ℝ}
    (h : (⟨impute, .live ks est last⟩ : FixedU P Key).covArray .all = .ok ⟨ks, c⟩) : est.covariance = .ok c := by
  unfold FixedU.covArray at h
  simp only [] at h
  rcases hc : est.covariance with e | c'
  · rw [hc] at h; cases h
  · rw [hc] at h
    have : (⟨ks, c'⟩ : KeyedMat Key) = ⟨ks, c⟩ := by
      injection h
    cases this; rfl

/-- What `mean` feeds for a missing key once there is a sample: the current mean. -/
theorem fill_mean (ks : List Key) (est : Obj (P.cls ks.length)) (last m : Fin ks.length → ℝ) (x : KDict Key)
    (hm : est.location = .ok m) (i : Fin ks.length) (hi : ks.get i ∉ x.keys) :
    FixedU.fillRow "mean" ks est last x i = m i := by
  unfold FixedU.fillRow
  rw [KDict.get?_none hi]
  simp only []
  rw [if_neg (by decide), if_pos trivial, if_pos (location_pos hm), hm]

theorem fill_other (impute : String) (hi' : impute ≠ "mean") (ks : List Key) (est : Obj (P.cls ks.length)) (last : Fin ks.length → ℝ) (x : KDict Key)
    (i : Fin ks.length) (hi : ks.get i ∉ x.keys) :
    FixedU.fillRow impute ks est last x i = if impute = "ffill" then last i else 0 := by
  unfold FixedU.fillRow
  rw [KDict.get?_none hi]
  simp only [hi', if_false]

theorem fill_present (impute : String) (ks : List Key) (est : Obj (P.cls ks.length)) (last : Fin ks.length → ℝ) (x : KDict Key)
    (i : Fin ks.length) (v : ℝ) (hi : x.get? (ks.get i) = some v) :
    FixedU.fillRow impute ks est last x i = v := by
  unfold FixedU.fillRow
  rw [hi]

/-! ## A key that stops being reported, mean imputation -/

theorem live_mean_decay {a s t : ℕ → ℝ} (hP : Moves P a s t) (ks : List Key) (ys : List (Fin ks.length → ℝ)) (hy : ys ≠ [])
    (last : Fin ks.length → ℝ) (c : Matrix (Fin ks.length) (Fin ks.length) ℝ) (hc : (wrapped P _ ys).covariance = .ok c)
    (Y : List (KDict Key)) :
    ∃ c', ((⟨"mean", .live ks (wrapped P _ ys) last⟩ : FixedU P Key).learnMany Y).covArray .all = .ok ⟨ks, c'⟩ ∧
      ∀ i, (∀ x ∈ Y, ks.get i ∉ x.keys) → ∀ j, c' i j = (∏ l ∈ Finset.range Y.length, s (ys.length + l)) * c i j ∧
        c' j i = (∏ l ∈ Finset.range Y.length, s (ys.length + l)) * c j i := by
  induction Y generalizing ys last c with
  | nil => exact ⟨c, covArray_live _ _ _ _ _ hc, by simp⟩
  | cons x Y ih =>
    obtain ⟨m, c0, h1, h2, h3⟩ := hP.next _ ys hy
    rw [hc] at h2; cases h2
    obtain ⟨c', e, h⟩ := ih (ys ++ [FixedU.fillRow "mean" ks (wrapped P _ ys) last x]) (by simp) (FixedU.newLast ks last x) _ (h3 _).2
    refine ⟨c', ?_, fun i hi j => ?_⟩
    · rw [← e]
      show FixedU.covArray (FixedU.learnMany (FixedU.update _ x) Y) .all = _
      rw [fixed_more]
    · obtain ⟨ha, hb⟩ := h i (fun z hz => hi z (List.mem_cons_of_mem _ hz)) j
      have hm := fill_mean ks (wrapped P _ ys) last m x h1 i (hi x List.mem_cons_self)
      simp only [Matrix.of_apply] at ha hb
      rw [ha, hb]
      have key : ∀ v : ℝ, (∏ l ∈ Finset.range Y.length, s ((ys ++ [FixedU.fillRow "mean" ks (wrapped P _ ys) last x]).length + l)) * (s ys.length * v)
          = (∏ l ∈ Finset.range (x :: Y).length, s (ys.length + l)) * v := by
        intro v
        rw [List.length_cons, Finset.prod_range_succ']
        have : ∀ l, (ys ++ [FixedU.fillRow "mean" ks (wrapped P _ ys) last x]).length + l = ys.length + (l + 1) := by
          intro l; simp; omega
        simp only [this, Nat.add_zero]
        ring
      rw [← key, ← key]
      constructor <;> congr 1 <;> rw [hm] <;> ring

theorem mean_decay {a s t : ℕ → ℝ} (hP : Moves P a s t) (keys : Option (List Key)) (X Y : List (KDict Key)) (hX : X ≠ [])
    (c : Matrix (Fin (universeOf keys X).length) (Fin (universeOf keys X).length) ℝ)
    (hc : ((FixedU.new P keys "mean").learnMany X).covArray .all = .ok ⟨universeOf keys X, c⟩) :
    ∃ c', ((FixedU.new P keys "mean").learnMany (X ++ Y)).covArray .all = .ok ⟨universeOf keys X, c'⟩ ∧
      ∀ i, (∀ x ∈ Y, (universeOf keys X).get i ∉ x.keys) → ∀ j,
        c' i j = (∏ l ∈ Finset.range Y.length, s (X.length + l)) * c i j ∧
        c' j i = (∏ l ∈ Finset.range Y.length, s (X.length + l)) * c j i := by
  obtain ⟨ys, last, e, hl, _⟩ := fixed_run' (P := P) "mean" keys X hX
  rw [e] at hc
  have hy : ys ≠ [] := by rintro rfl; exact hX (List.length_eq_zero_iff.1 hl.symm)
  have := live_mean_decay hP _ ys hy last c (covArray_live_inv hc) Y
  rw [hl] at this
  have ea : FixedU.learnMany (FixedU.new P keys "mean") (X ++ Y) = FixedU.learnMany (FixedU.learnMany (FixedU.new P keys "mean") X) Y := by
    simp [FixedU.learnMany]
  rw [ea, e]
  exact this

theorem prod_emp (n m : ℕ) (hn : n ≠ 0) : (∏ l ∈ Finset.range m, (((n + l : ℕ) : ℝ) / (((n + l : ℕ) : ℝ) + 1))) = (n : ℝ) / ((n : ℝ) + m) := by
  induction m with
  | zero => have : (n : ℝ) ≠ 0 := by exact_mod_cast hn
            simp [this]
  | succ m ih =>
    rw [Finset.prod_range_succ, ih]
    have h1 : (n : ℝ) + m ≠ 0 := by positivity
    have h2 : (n : ℝ) + m + 1 ≠ 0 := by positivity
    push_cast
    field_simp
    ring

/-- C119: mean imputation around EmpiricalCovariance. While a key `k` is missing from `m` consecutive observations after
`n` earlier ones, its variance and all its covariances are multiplied by `n/(n+m)` exactly, whatever the observations
contain: a key that is no longer reported comes to look riskless and uncorrelated. An observation without any known key
(`{}`) shrinks the whole matrix. -/
theorem C119_mean_empirical (keys : Option (List Key)) (X Y : List (KDict Key)) (hX : X ≠ [])
    (c : Matrix (Fin (universeOf keys X).length) (Fin (universeOf keys X).length) ℝ)
    (hc : ((FixedU.new empProto keys "mean").learnMany X).covArray .all = .ok ⟨universeOf keys X, c⟩) :
    ∃ c', ((FixedU.new empProto keys "mean").learnMany (X ++ Y)).covArray .all = .ok ⟨universeOf keys X, c'⟩ ∧
      ∀ i, (∀ x ∈ Y, (universeOf keys X).get i ∉ x.keys) → ∀ j,
        c' i j = (X.length : ℝ) / (X.length + Y.length) * c i j ∧ c' j i = (X.length : ℝ) / (X.length + Y.length) * c j i := by
  have := mean_decay emp_moves keys X Y hX c hc
  simp only [prod_emp X.length Y.length (by simpa using hX)] at this
  exact this

/-- C119: the same for EwaCovariance after the burn-in: the factor is `(1-r)^m`. -/
theorem C119_mean_ewa (r : ℝ) (hr : r ≠ 0) (keys : Option (List Key)) (X Y : List (KDict Key)) (hX : ewaBurnN r ≤ X.length)
    (c : Matrix (Fin (universeOf keys X).length) (Fin (universeOf keys X).length) ℝ)
    (hc : ((FixedU.new (ewaProto r) keys "mean").learnMany X).covArray .all = .ok ⟨universeOf keys X, c⟩) :
    ∃ c', ((FixedU.new (ewaProto r) keys "mean").learnMany (X ++ Y)).covArray .all = .ok ⟨universeOf keys X, c'⟩ ∧
      ∀ i, (∀ x ∈ Y, (universeOf keys X).get i ∉ x.keys) → ∀ j,
        c' i j = (1 - r) ^ Y.length * c i j ∧ c' j i = (1 - r) ^ Y.length * c j i := by
  have h5 := (C19_burn_length_any r hr).2.2.1
  have hne : X ≠ [] := by rintro rfl; simp at hX; omega
  have := mean_decay (ewa_moves r hr) keys X Y hne c hc
  have e : (∏ l ∈ Finset.range Y.length, (if X.length + l < ewaBurnN r then (((X.length + l : ℕ) : ℝ) / (((X.length + l : ℕ) : ℝ) + 1)) else 1 - r))
      = (1 - r) ^ Y.length := by
    rw [Finset.prod_congr rfl (fun l _ => if_neg (by omega : ¬ X.length + l < ewaBurnN r))]
    simp
  simp only [e] at this
  exact this

/-! ## A key that stops being reported, the other modes -/

/-- The rows fed while key `i` is missing have the same value there. -/
theorem live_const {a s t : ℕ → ℝ} (hP : Moves P a s t) (impute : String) (hi' : impute ≠ "mean") (ks : List Key)
    (ys : List (Fin ks.length → ℝ)) (hy : ys ≠ []) (last : Fin ks.length → ℝ) (i : Fin ks.length)
    (Q : ℕ → ℝ → ℝ → Prop) (m : Fin ks.length → ℝ) (c : Matrix (Fin ks.length) (Fin ks.length) ℝ)
    (hm : (wrapped P _ ys).location = .ok m) (hc : (wrapped P _ ys).covariance = .ok c)
    (h0 : Q ys.length (m i - if impute = "ffill" then last i else 0) (c i i))
    (hs : ∀ n D w, ys.length ≤ n → Q n D w → Q (n + 1) ((1 - a n) * D) (s n * w + t n * (D * D)))
    (Y : List (KDict Key)) (hY : ∀ x ∈ Y, ks.get i ∉ x.keys) :
    ∃ c', ((⟨impute, .live ks (wrapped P _ ys) last⟩ : FixedU P Key).learnMany Y).covArray .all = .ok ⟨ks, c'⟩ ∧
      ∃ D, Q (ys.length + Y.length) D (c' i i) := by
  induction Y generalizing ys last m c with
  | nil => exact ⟨c, covArray_live _ _ _ _ _ hc, _, h0⟩
  | cons x Y ih =>
    obtain ⟨m0, c0, h1, h2, h3⟩ := hP.next _ ys hy
    rw [hc] at h2; cases h2
    rw [hm] at h1; cases h1
    have hx := hY x List.mem_cons_self
    have hf := fill_other impute hi' ks (wrapped P _ ys) last x i hx
    have hl : FixedU.newLast ks last x i = last i := by
      unfold FixedU.newLast; rw [KDict.get?_none hx]; rfl
    obtain ⟨c', e, D, h⟩ := ih (ys ++ [FixedU.fillRow impute ks (wrapped P _ ys) last x]) (by simp) (FixedU.newLast ks last x)
      _ _ (h3 _).1 (h3 _).2 (by
        rw [hl]
        have := hs ys.length _ _ le_rfl h0
        simp only [Matrix.of_apply, hf, List.length_append, List.length_singleton]
        convert this using 1 <;> ring)
      (fun n D w hn => hs n D w (by simp at hn; omega)) (fun z hz => hY z (List.mem_cons_of_mem _ hz))
    refine ⟨c', ?_, D, ?_⟩
    · rw [← e]
      show FixedU.covArray (FixedU.learnMany (FixedU.update _ x) Y) .all = _
      rw [fixed_more]
    · convert h using 1
      simp; omega

theorem nonneg_var {d : ℕ} {a s t : ℕ → ℝ} (hP : Moves P a s t) (hs : ∀ n, 0 ≤ s n) (ht : ∀ n, 0 ≤ t n)
    (ys : List (Fin d → ℝ)) (hy : ys ≠ []) (c : Matrix (Fin d) (Fin d) ℝ) (hc : (wrapped P _ ys).covariance = .ok c) (i : Fin d) : 0 ≤ c i i := by
  induction ys using List.reverseRecOn generalizing c with
  | nil => exact absurd rfl hy
  | append_singleton ys y ih =>
    by_cases h : ys = []
    · subst h
      rw [List.nil_append, (hP.first d y).2] at hc
      cases hc; simp
    · obtain ⟨m, c0, h1, h2, h3⟩ := hP.next _ ys h
      rw [(h3 y).2] at hc
      cases hc
      simp only [Matrix.of_apply]
      exact add_nonneg (mul_nonneg (hs _) (ih h _ h2)) (mul_nonneg (ht _) (mul_self_nonneg _))

/-- C119: whatever the imputation mode, the variance EmpiricalCovariance reports for a key that has stopped appearing
tends to zero like `1/n`: there is a constant, fixed when it is last seen, such that after any number of observations
without it the variance is at most that constant over the number of observations. -/
theorem C119_vanishing_empirical (impute : String) (keys : Option (List Key)) (X : List (KDict Key)) (hX : X ≠ [])
    (i : Fin (universeOf keys X).length) :
    ∃ B : ℝ, ∀ Y : List (KDict Key), (∀ x ∈ Y, (universeOf keys X).get i ∉ x.keys) →
      ∃ c', ((FixedU.new empProto keys impute).learnMany (X ++ Y)).covArray .all = .ok ⟨universeOf keys X, c'⟩ ∧
        0 ≤ c' i i ∧ c' i i ≤ B / (X.length + Y.length) := by
  obtain ⟨ys, last, e, hl, _⟩ := fixed_run' (P := empProto) impute keys X hX
  have hy : ys ≠ [] := by rintro rfl; exact hX (List.length_eq_zero_iff.1 hl.symm)
  have hn0 : (0:ℝ) < ys.length := by exact_mod_cast List.length_pos_of_ne_nil hy
  obtain ⟨m, c, h1, h2, -⟩ := emp_moves.next _ ys hy
  have hv := nonneg_var emp_moves (fun n => by positivity) (fun n => by positivity) ys hy c h2 i
  have ea : ∀ Y, FixedU.learnMany (FixedU.new empProto keys impute) (X ++ Y) = FixedU.learnMany (FixedU.learnMany (FixedU.new empProto keys impute) X) Y := by
    intro Y; simp [FixedU.learnMany]
  by_cases hm : impute = "mean"
  · subst hm
    refine ⟨X.length * c i i, fun Y hY => ?_⟩
    obtain ⟨c', hc', h⟩ := C119_mean_empirical keys X Y hX c (by rw [e]; exact covArray_live _ _ _ _ _ h2)
    refine ⟨c', hc', ?_, ?_⟩
    · rw [(h i hY i).1]; positivity
    · rw [(h i hY i).1]; exact le_of_eq (by ring)
  · let D0 := m i - if impute = "ffill" then last i else 0
    refine ⟨ys.length * (c i i + D0 ^ 2), fun Y hY => ?_⟩
    have := live_const emp_moves impute hm _ ys hy last i
      (fun n D w => n * D = ys.length * D0 ∧ 0 ≤ w ∧ w = ys.length / n * c i i + (ys.length / n - (ys.length / n) ^ 2) * D0 ^ 2) m c h1 h2
      (by
        refine ⟨rfl, hv, ?_⟩
        rw [div_self hn0.ne']; ring)
      (by
        rintro n D w hn ⟨q1, q2, q3⟩
        have hn' : (0:ℝ) < n := by
          have : (ys.length : ℝ) ≤ n := by exact_mod_cast hn
          linarith
        have hD : D = ys.length * D0 / n := by rw [eq_div_iff hn'.ne']; linarith
        refine ⟨?_, ?_, ?_⟩
        · push_cast
          rw [← q1]; field_simp; ring
        · have := mul_self_nonneg D
          positivity
        · push_cast
          rw [q3, hD]; field_simp; ring)
      Y hY
    obtain ⟨c', hc', D, hD⟩ := this
    refine ⟨c', by rw [ea, e]; exact hc', hD.2.1, ?_⟩
    rw [hD.2.2]
    push_cast
    rw [← hl]
    have hp : (0:ℝ) < ys.length + Y.length := by positivity
    have hD0 : 0 ≤ D0 ^ 2 := sq_nonneg _
    have : (ys.length / (ys.length + Y.length : ℝ) - (ys.length / (ys.length + Y.length : ℝ)) ^ 2) * D0 ^ 2
        ≤ ys.length / (ys.length + Y.length : ℝ) * D0 ^ 2 := by
      apply mul_le_mul_of_nonneg_right _ hD0
      have := sq_nonneg (ys.length / (ys.length + Y.length : ℝ))
      linarith
    calc _ ≤ ys.length / (ys.length + Y.length : ℝ) * c i i + ys.length / (ys.length + Y.length : ℝ) * D0 ^ 2 := by linarith
      _ = _ := by ring

/-- C119: the same for EwaCovariance after its burn-in, geometrically. -/
theorem C119_vanishing_ewa (r : ℝ) (hr : 0 < r) (hr1 : r < 1) (impute : String) (keys : Option (List Key)) (X : List (KDict Key))
    (hX : ewaBurnN r ≤ X.length) (i : Fin (universeOf keys X).length) :
    ∃ B : ℝ, ∀ Y : List (KDict Key), (∀ x ∈ Y, (universeOf keys X).get i ∉ x.keys) →
      ∃ c', ((FixedU.new (ewaProto r) keys impute).learnMany (X ++ Y)).covArray .all = .ok ⟨universeOf keys X, c'⟩ ∧
        0 ≤ c' i i ∧ c' i i ≤ B * (1 - r) ^ Y.length := by
  have h5 := (C19_burn_length_any r hr.ne').2.2.1
  have hne : X ≠ [] := by rintro rfl; simp at hX; omega
  have hr2 : 0 < 1 - r := by linarith
  obtain ⟨ys, last, e, hl, _⟩ := fixed_run' (P := ewaProto r) impute keys X hne
  have hy : ys ≠ [] := by rintro rfl; exact hne (List.length_eq_zero_iff.1 hl.symm)
  obtain ⟨m, c, h1, h2, -⟩ := (ewa_moves r hr.ne').next _ ys hy
  have hv := nonneg_var (ewa_moves r hr.ne') (fun n => by split <;> [positivity; exact hr2.le]) (fun n => by split <;> positivity) ys hy c h2 i
  have ea : ∀ Y, FixedU.learnMany (FixedU.new (ewaProto r) keys impute) (X ++ Y) = FixedU.learnMany (FixedU.learnMany (FixedU.new (ewaProto r) keys impute) X) Y := by
    intro Y; simp [FixedU.learnMany]
  by_cases hm : impute = "mean"
  · subst hm
    refine ⟨c i i, fun Y hY => ?_⟩
    obtain ⟨c', hc', h⟩ := C119_mean_ewa r hr.ne' keys X Y hX c (by rw [e]; exact covArray_live _ _ _ _ _ h2)
    refine ⟨c', hc', ?_, ?_⟩
    · rw [(h i hY i).1]; exact mul_nonneg (pow_nonneg hr2.le _) hv
    · rw [(h i hY i).1]; exact le_of_eq (by ring)
  · let D0 := m i - if impute = "ffill" then last i else 0
    refine ⟨c i i + D0 ^ 2 / (1 - r), fun Y hY => ?_⟩
    have := live_const (ewa_moves r hr.ne') impute hm _ ys hy last i
      (fun n D w => D = (1 - r) ^ (n - ys.length) * D0 ∧ 0 ≤ w ∧
        w = (1 - r) ^ (n - ys.length) * c i i + D0 ^ 2 / (1 - r) * ((1 - r) ^ (n - ys.length) - ((1 - r) ^ (n - ys.length)) ^ 2)) m c h1 h2
      (by
        refine ⟨by simp [D0], hv, by simp⟩)
      (by
        rintro n D w hn ⟨q1, q2, q3⟩
        have hb : ¬ n < ewaBurnN r := by omega
        simp only [hb, if_false]
        have hk : n + 1 - ys.length = (n - ys.length) + 1 := by omega
        rw [hk]
        refine ⟨?_, ?_, ?_⟩
        · rw [q1, pow_succ]; ring
        · have := mul_self_nonneg D
          positivity
        · rw [q3, q1, pow_succ]; field_simp; ring)
      Y hY
    obtain ⟨c', hc', D, hD⟩ := this
    refine ⟨c', by rw [ea, e]; exact hc', hD.2.1, ?_⟩
    rw [hD.2.2, Nat.add_sub_cancel_left]
    have hD0 : 0 ≤ D0 ^ 2 / (1 - r) := by positivity
    have := mul_nonneg hD0 (sq_nonneg ((1 - r) ^ Y.length))
    nlinarith [this]

/-! ## Keys that are always present do not notice -/

theorem present_unaffected {a s t : ℕ → ℝ} (hP : Moves P a s t) (imp imp' : String) (keys : Option (List Key)) (X : List (KDict Key)) (hX : X ≠ [])
    (i j : Fin (universeOf keys X).length)
    (hi : ∀ x ∈ X, (universeOf keys X).get i ∈ x.keys) (hj : ∀ x ∈ X, (universeOf keys X).get j ∈ x.keys) :
    ∃ c c', ((FixedU.new P keys imp).learnMany X).covArray .all = .ok ⟨universeOf keys X, c⟩ ∧
      ((FixedU.new P keys imp').learnMany X).covArray .all = .ok ⟨universeOf keys X, c'⟩ ∧ c i j = c' i j := by
  suffices h : ∀ (ks : List Key) (i j : Fin ks.length) (X : List (KDict Key)), X ≠ [] → (∀ x ∈ X, ks.get i ∈ x.keys) → (∀ x ∈ X, ks.get j ∈ x.keys) →
      universeOf keys X = ks →
      ∃ ys last zs last' m c m' c', FixedU.learnMany (FixedU.new P keys imp) X = ⟨imp, .live ks (wrapped P _ ys) last⟩ ∧
        FixedU.learnMany (FixedU.new P keys imp') X = ⟨imp', .live ks (wrapped P _ zs) last'⟩ ∧
        ys ≠ [] ∧ ys.length = zs.length ∧
        (wrapped P _ ys).location = .ok m ∧ (wrapped P _ ys).covariance = .ok c ∧
        (wrapped P _ zs).location = .ok m' ∧ (wrapped P _ zs).covariance = .ok c' ∧ m i = m' i ∧ m j = m' j ∧ c i j = c' i j by
    obtain ⟨ys, last, zs, last', m, c, m', c', e1, e2, _, _, _, h1, _, h2, _, _, h3⟩ := h _ i j X hX hi hj rfl
    exact ⟨c, c', by rw [e1]; exact covArray_live _ _ _ _ _ h1, by rw [e2]; exact covArray_live _ _ _ _ _ h2, h3⟩
  intro ks i j X
  induction X using List.reverseRecOn with
  | nil => intro h; exact absurd rfl h
  | append_singleton X x ih =>
    intro _ hi hj hu
    obtain ⟨vi, hvi⟩ := KDict.get?_isSome.1 (hi x (by simp))
    obtain ⟨vj, hvj⟩ := KDict.get?_isSome.1 (hj x (by simp))
    by_cases h : X = []
    · subst h
      have e : ∀ imp, FixedU.learnMany (FixedU.new P keys imp) ([] ++ [x])
          = ⟨imp, .live ks (wrapped P _ [FixedU.fillRow imp ks (P.make ks.length) (fun _ => 0) x]) (FixedU.newLast ks (fun _ => 0) x)⟩ := by
        intro imp; subst hu; cases keys <;> rfl
      refine ⟨_, _, _, _, _, _, _, _, e imp, e imp', by simp, rfl, (hP.first _ _).1, (hP.first _ _).2, (hP.first _ _).1, (hP.first _ _).2, ?_, ?_, rfl⟩
      · rw [fill_present _ _ _ _ _ _ _ hvi, fill_present _ _ _ _ _ _ _ hvi]
      · rw [fill_present _ _ _ _ _ _ _ hvj, fill_present _ _ _ _ _ _ _ hvj]
    · obtain ⟨ys, last, zs, last', m, c, m', c', e1, e2, hy, hlen, h1, h2, h3, h4, h5, h6, h7⟩ :=
        ih h (fun z hz => hi z (by simp [hz])) (fun z hz => hj z (by simp [hz])) (by rw [← hu, universeOf_append _ _ _ h])
      have ea : ∀ imp, FixedU.learnMany (FixedU.new P keys imp) (X ++ [x]) = (FixedU.learnMany (FixedU.new P keys imp) X).update x := by
        intro imp; simp [FixedU.learnMany]
      have hz : zs ≠ [] := by rintro rfl; exact hy (List.length_eq_zero_iff.1 hlen)
      obtain ⟨m0, c0, g1, g2, g3⟩ := hP.next _ ys hy
      obtain ⟨m0', c0', k1, k2, k3⟩ := hP.next _ zs hz
      rw [h1] at g1; cases g1
      rw [h2] at g2; cases g2
      rw [h3] at k1; cases k1
      rw [h4] at k2; cases k2
      refine ⟨_, _, _, _, _, _, _, _, by rw [ea, e1, fixed_more], by rw [ea, e2, fixed_more], by simp, by simp [hlen],
        (g3 _).1, (g3 _).2, (k3 _).1, (k3 _).2, ?_, ?_, ?_⟩
      · simp only [fill_present _ _ _ _ _ _ _ hvi, h5, hlen]
      · simp only [fill_present _ _ _ _ _ _ _ hvj, h6, hlen]
      · simp only [Matrix.of_apply, fill_present _ _ _ _ _ _ _ hvi, fill_present _ _ _ _ _ _ _ hvj, h5, h6, h7, hlen]

/-- C119: the covariance of two keys present in every observation does not depend on the imputation mode, however often
the other keys are missing (EmpiricalCovariance). -/
theorem C119_present_empirical (imp imp' : String) (keys : Option (List Key)) (X : List (KDict Key)) (hX : X ≠ [])
    (i j : Fin (universeOf keys X).length)
    (hi : ∀ x ∈ X, (universeOf keys X).get i ∈ x.keys) (hj : ∀ x ∈ X, (universeOf keys X).get j ∈ x.keys) :
    ∃ c c', ((FixedU.new empProto keys imp).learnMany X).covArray .all = .ok ⟨universeOf keys X, c⟩ ∧
      ((FixedU.new empProto keys imp').learnMany X).covArray .all = .ok ⟨universeOf keys X, c'⟩ ∧ c i j = c' i j :=
  present_unaffected emp_moves imp imp' keys X hX i j hi hj

/-- C119: the same for EwaCovariance. -/
theorem C119_present_ewa (r : ℝ) (hr : r ≠ 0) (imp imp' : String) (keys : Option (List Key)) (X : List (KDict Key)) (hX : X ≠ [])
    (i j : Fin (universeOf keys X).length)
    (hi : ∀ x ∈ X, (universeOf keys X).get i ∈ x.keys) (hj : ∀ x ∈ X, (universeOf keys X).get j ∈ x.keys) :
    ∃ c c', ((FixedU.new (ewaProto r) keys imp).learnMany X).covArray .all = .ok ⟨universeOf keys X, c⟩ ∧
      ((FixedU.new (ewaProto r) keys imp').learnMany X).covArray .all = .ok ⟨universeOf keys X, c'⟩ ∧ c i j = c' i j :=
  present_unaffected (ewa_moves r hr) imp imp' keys X hX i j hi hj

/-! ## Levels and increments -/

/-- `EmpiricalCovariance(diff=d)` as the wrapped estimator. -/
noncomputable def empDiffProto (d : Bool) : Proto := { cls := fun n => empiricalCls (Fin n) ℝ, par := fun _ => d }

theorem empDiff_cov (b : Bool) {d : ℕ} (ys : List (Fin d → ℝ)) (h : effective b ys ≠ []) :
    (wrapped (empDiffProto b) d ys).covariance = .ok (covOf (effective b ys)) ∧ (wrapped (empDiffProto b) d ys).location = .ok (meanOf (effective b ys)) := by
  have hu : used b (feedCalls ys) = effective b ys := by unfold used; rw [rowsSinceFit_feedCalls]; rfl
  have := C15_batch (ι := Fin d) (K := ℝ) b (feedCalls ys) (by rw [hu]; exact h)
  rw [hu] at this
  exact ⟨this.2.1, this.1⟩

theorem empDiff_none (b : Bool) {d : ℕ} (ys : List (Fin d → ℝ)) (h : effective b ys = []) (c : Matrix (Fin d) (Fin d) ℝ) :
    (wrapped (empDiffProto b) d ys).covariance ≠ .ok c := by
  have hu : used b (feedCalls ys) = effective b ys := by unfold used; rw [rowsSinceFit_feedCalls]; rfl
  have := (run_unfitted (empirical_lawful (Fin d) ℝ) b (feedCalls ys) (by
    show used b (feedCalls ys) = []
    rw [hu]; exact h)).1
  intro hc
  change ((Obj.new (empiricalCls (Fin d) ℝ) b).run (feedCalls ys)).covariance = .ok c at hc
  rw [this] at hc
  cases hc

theorem lastSeen_const (X : List (KDict Key)) (k : Key) (v : ℝ) (h : ∀ x ∈ X, ∀ w, x.get? k = some w → w = v)
    (h0 : ∃ x ∈ X, k ∈ x.keys) : lastSeen X k = v := by
  induction X using List.reverseRecOn with
  | nil => simp at h0
  | append_singleton X x ih =>
    rw [lastSeen_snoc]
    rcases hx : x.get? k with _ | w
    · refine ih (fun z hz => h z (by simp [hz])) ?_
      obtain ⟨z, hz, hk⟩ := h0
      simp only [List.mem_append, List.mem_singleton] at hz
      rcases hz with hz | rfl
      · exact ⟨z, hz, hk⟩
      · obtain ⟨w, hw⟩ := KDict.get?_isSome.1 hk
        rw [hx] at hw; cases hw
    · exact h x (by simp) w hx

theorem covOf_const_row {d : ℕ} (xs : List (Fin d → ℝ)) (i : Fin d) (v : ℝ) (h : ∀ x ∈ xs, x i = v) (j : Fin d) : covOf xs i j = 0 := by
  by_cases hx : xs = []
  · subst hx; simp [covOf]
  have hl : (xs.length : ℝ) ≠ 0 := by simpa using hx
  have hm : meanOf xs i = v := by
    unfold meanOf
    rw [List.map_congr_left (fun x hx => h x hx)]
    simp [hl]
  simp only [covOf, Matrix.of_apply, hm]
  rw [List.map_congr_left (fun x hx => by rw [h x hx])]
  simp

theorem diffs_const {d : ℕ} (ys : List (Fin d → ℝ)) (i : Fin d) (v : ℝ) (h : ∀ x ∈ ys, x i = v) : ∀ x ∈ diffs ys, x i = 0 := by
  induction ys with
  | nil => simp [diffs]
  | cons y ys ih =>
    cases ys with
    | nil => simp [diffs]
    | cons z ys =>
      intro x hx
      simp only [diffs, List.mem_cons] at hx
      rcases hx with rfl | hx
      · simp [h y (by simp), h z (by simp)]
      · exact ih (fun w hw => h w (List.mem_cons_of_mem _ hw)) x hx

/-- C119: forward filling never invents movement: if every value ever seen of a key is the same `v`, and it was in the
first observation, its variance and covariances are 0, whatever is missing later, with `diff` on or off. -/
theorem C119_ffill_constant (b : Bool) (keys : Option (List Key)) (x0 : KDict Key) (X : List (KDict Key))
    (i : Fin (universeOf keys (x0 :: X)).length) (v : ℝ)
    (h0 : x0.get? ((universeOf keys (x0 :: X)).get i) = some v)
    (h : ∀ x ∈ X, ∀ w, x.get? ((universeOf keys (x0 :: X)).get i) = some w → w = v)
    (c : Matrix (Fin (universeOf keys (x0 :: X)).length) (Fin (universeOf keys (x0 :: X)).length) ℝ)
    (hc : ((FixedU.new (empDiffProto b) keys "ffill").learnMany (x0 :: X)).covArray .all = .ok ⟨_, c⟩) (j) :
    c i j = 0 := by
  obtain ⟨ys, last, e, hF⟩ := fixed_run (P := empDiffProto b) "ffill" keys (x0 :: X) (by simp)
  rw [e] at hc
  have hc' := covArray_live_inv hc
  have hall : ∀ x ∈ x0 :: X, ∀ w, x.get? ((universeOf keys (x0 :: X)).get i) = some w → w = v := by
    intro x hx w hw
    rcases List.mem_cons.1 hx with rfl | hx
    · rw [h0] at hw; cases hw; rfl
    · exact h x hx w hw
  have hy : ∀ y ∈ ys, y i = v := by
    intro y hy
    obtain ⟨t, ht, rfl⟩ := List.getElem_of_mem hy
    have ht' : t < (x0 :: X).length := by rw [← hF.1]; exact ht
    obtain ⟨f1, f2, -⟩ := hF.2 t _ _ (List.getElem?_eq_getElem ht') (List.getElem?_eq_getElem ht) i
    by_cases hk : (universeOf keys (x0 :: X)).get i ∈ ((x0 :: X)[t]).keys
    · obtain ⟨w, hw⟩ := KDict.get?_isSome.1 hk
      rw [f1 w hw]
      exact hall _ (List.getElem_mem ht') w hw
    · rw [f2 hk rfl]
      refine lastSeen_const _ _ v (fun x hx => hall x (List.mem_of_mem_take hx)) ⟨x0, ?_, KDict.get?_isSome.2 ⟨v, h0⟩⟩
      rcases t with _ | t
      · exact absurd (KDict.get?_isSome.2 ⟨v, h0⟩) hk
      · simp
  by_cases he : effective b ys = []
  · exact absurd hc' (empDiff_none b ys he c)
  · rw [(empDiff_cov b ys he).1] at hc'
    cases hc'
    cases b
    · exact covOf_const_row _ i v hy j
    · exact covOf_const_row _ i 0 (diffs_const ys i v hy) j

/-- The stream of the next theorem: `a` is seen twice at the level `v`, then missing. -/
noncomputable def flatGap (v : ℝ) : List (KDict String) := [⟨[("a", v)], by simp⟩, ⟨[("a", v)], by simp⟩, ⟨[], by simp⟩]

/-- C119, the failing case: `impute="mean"` with `diff=True`. The adapter fills in `location_`, which is then the mean
*increment*, as if it were a level. A key that is seen at a constant level `v` (all increments 0) and is then missing once
is given the variance `v²/4`, without bound as `v` grows, where forward filling gives 0. -/
theorem C119_mean_diff_jump (v : ℝ) :
    ∃ (c c' : Matrix (Fin 1) (Fin 1) ℝ),
      ((FixedU.new (empDiffProto true) none "mean").learnMany (flatGap v)).covArray .all = .ok ⟨["a"], c⟩ ∧ c 0 0 = v ^ 2 / 4 ∧
      ((FixedU.new (empDiffProto true) none "ffill").learnMany (flatGap v)).covArray .all = .ok ⟨["a"], c'⟩ ∧ c' 0 0 = 0 := by
  have gen : ∀ imp, ∃ ys : List (Fin 1 → ℝ), FilledBy (empDiffProto true) imp ["a"] (flatGap v) ys ∧
      ((FixedU.new (empDiffProto true) none imp).learnMany (flatGap v)).covArray .all
        = (wrapped (empDiffProto true) 1 ys).covariance.map fun c => ⟨["a"], c⟩ := by
    intro imp
    obtain ⟨ys, last, e, hF⟩ := fixed_run (P := empDiffProto true) imp none (flatGap v) (by simp [flatGap])
    refine ⟨ys, hF, ?_⟩
    rw [e]
    unfold FixedU.covArray
    simp only []
    show _ = (wrapped (empDiffProto true) (universeOf none (flatGap v)).length ys).covariance.map _
    rcases (wrapped (empDiffProto true) (universeOf none (flatGap v)).length ys).covariance with err | c <;> rfl
  have shape : ∀ ys : List (Fin 1 → ℝ), ys.length = (flatGap v).length → ∃ y0 y1 y2, ys = [y0, y1, y2] := by
    intro ys h
    match ys, h with
    | [y0, y1, y2], _ => exact ⟨y0, y1, y2, rfl⟩
  obtain ⟨ys, hF, hc⟩ := gen "mean"
  obtain ⟨zs, hG, hd⟩ := gen "ffill"
  obtain ⟨y0, y1, y2, rfl⟩ := shape ys hF.1
  obtain ⟨z0, z1, z2, rfl⟩ := shape zs hG.1
  have q0 : y0 0 = v := (hF.2 0 _ _ rfl rfl 0).1 v (by simp [KDict.get?, List.lookup])
  have q1 : y1 0 = v := (hF.2 1 _ _ rfl rfl 0).1 v (by simp [KDict.get?, List.lookup])
  have r0 : z0 0 = v := (hG.2 0 _ _ rfl rfl 0).1 v (by simp [KDict.get?, List.lookup])
  have r1 : z1 0 = v := (hG.2 1 _ _ rfl rfl 0).1 v (by simp [KDict.get?, List.lookup])
  have hloc := (empDiff_cov true [y0, y1] (by simp [effective, diffs])).2
  have q2 : y2 0 = 0 := by
    have := (hF.2 2 _ _ rfl rfl 0).2.2.2.1 (by simp [KDict.keys]) rfl _ hloc
    rw [this]
    simp [meanOf, effective, diffs, q0, q1]
  have r2 : z2 0 = v := by
    have := (hG.2 2 _ _ rfl rfl 0).2.1 (by simp [KDict.keys]) rfl
    rw [this]
    simp [lastSeen, flatGap, KDict.get?, List.lookup]
  rw [(empDiff_cov true [y0, y1, y2] (by simp [effective, diffs])).1] at hc
  rw [(empDiff_cov true [z0, z1, z2] (by simp [effective, diffs])).1] at hd
  refine ⟨_, _, hc, ?_, hd, ?_⟩
  · simp [covOf, meanOf, effective, diffs, q0, q1, q2]; ring
  · simp [covOf, meanOf, effective, diffs, r0, r1, r2]

/-! ### Non-vacuity -/

/-- `demoGap` (`b` missing from the third observation) extends `demoDicts`, whose matrix has positive variances; so the
decay theorems speak about a matrix that is not already zero, for the key `b`. -/
example : demoGap = demoDicts ++ [⟨[("a", 5)], by decide⟩] ∧ (universeOf none demoDicts)[1]? = some "b" ∧
    ∃ c, ((FixedU.new empProto none "mean").learnMany demoDicts).covArray .all = .ok ⟨["a", "b"], c⟩ ∧ c 1 1 = 1 := by
  have h := C41_complete (P := empProto) "mean" none demoDicts (by simp [demoDicts]) (by
    intro x hx
    simp only [demoDicts, List.mem_cons, List.not_mem_nil, or_false] at hx
    rcases hx with rfl | rfl <;> intro k hk <;> simp [universeOf, KDict.keys, demoDicts] at hk ⊢ <;> tauto)
  rw [(empProto_cov _ (by simp [demoDicts])).1] at h
  refine ⟨rfl, rfl, _, h, ?_⟩
  have e : demoDicts.map (rowOf ["a", "b"]) = [![1, 2], ![3, 4]] := by
    simp only [demoDicts, List.map_cons, List.map_nil, List.cons.injEq, and_true]
    constructor <;> funext i <;> fin_cases i <;> simp [rowOf, KDict.get?, List.lookup]
  show covOf (demoDicts.map (rowOf ["a", "b"])) (1 : Fin 2) 1 = 1
  rw [e]
  simp [covOf, meanOf]
  norm_num

end Precise
