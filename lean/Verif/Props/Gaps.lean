import Verif.Props.Imputation
import Verif.Props.DynUniverse
import Verif.Spec.Gaps

/-!
# C121: increments across gaps (`diff=True` inside the keyed adapters)
-/

set_option linter.all false

namespace Precise

open Spec

variable {Key : Type} [DecidableEq Key]

/-! ## Lists -/

theorem diffs_map_line {d : ℕ} (a v : Fin d → ℝ) (ts : List ℝ) :
    diffs (ts.map fun s => (fun i => a i + v i * s : Fin d → ℝ)) = (steps ts).map fun g => fun i => v i * g := by
  induction ts with
  | nil => rfl
  | cons s ts ih =>
    cases ts with
    | nil => rfl
    | cons u ts =>
      simp only [List.map_cons, diffs, steps] at ih ⊢
      rw [ih]
      congr 1
      funext i
      simp only [Pi.sub_apply]; ring

theorem covOf_line {d : ℕ} (v : Fin d → ℝ) (gs : List ℝ) (i j : Fin d) :
    covOf (gs.map fun g => (fun i => v i * g : Fin d → ℝ)) i j = v i * v j * variance gs := by
  have hm : ∀ i, meanOf (gs.map fun g => (fun i => v i * g : Fin d → ℝ)) i = v i * (gs.sum / gs.length) := by
    intro i
    unfold meanOf
    rw [List.map_map, List.length_map]
    show (gs.map fun g => v i * g).sum / _ = _
    rw [List.sum_map_mul_left, List.map_id', mul_div_assoc]
  simp only [covOf, Matrix.of_apply, hm, variance, List.map_map, List.length_map]
  rw [show (v i * v j * ((gs.map fun a => (a - gs.sum / gs.length) * (a - gs.sum / gs.length)).sum / gs.length) : ℝ)
    = ((gs.map fun a => v i * v j * ((a - gs.sum / gs.length) * (a - gs.sum / gs.length))).sum) / gs.length by
      rw [List.sum_map_mul_left, mul_div_assoc]]
  congr 2
  apply List.map_congr_left
  intro g _
  show (v i * g - _) * (v j * g - _) = _
  ring

theorem variance_const (n : ℕ) (g : ℝ) : variance (List.replicate n g) = 0 := by
  unfold variance
  by_cases hn : n = 0
  · subst hn; simp
  have : (n : ℝ) ≠ 0 := by exact_mod_cast hn
  have e : (List.replicate n g).sum / ((List.replicate n g).length : ℝ) = g := by
    simp; field_simp
  rw [e]; simp

theorem steps_range (n : ℕ) : ∀ m : ℕ, steps ((List.range' m n).map fun k : ℕ => (k : ℝ)) = List.replicate (n - 1) 1 := by
  induction n with
  | zero => intro m; rfl
  | succ n ih =>
    intro m
    cases n with
    | zero => rfl
    | succ n =>
      have := ih (m + 1)
      simp only [List.range'_succ, List.map_cons, steps] at this ⊢
      rw [this]
      simp [List.replicate_succ]

/-! ## DynamicUniverse -/

theorem zip_mem {X : List (KDict Key)} {t : ℕ} {p : KDict Key × ℕ} (h : p ∈ (X.drop t).zipIdx t) : X[p.2]? = some p.1 := by
  obtain ⟨x, s⟩ := p
  have h1 := List.mk_mem_zipIdx_iff_le_and_getElem?_sub.1 h
  rw [List.getElem?_drop] at h1
  have : t + (s - t) = s := by omega
  rw [this] at h1
  exact h1.2

theorem subStream_rows {a v : Key → ℝ} {X : List (KDict Key)} (h : OnTrend a v X) (t : ℕ) (ks : List Key) :
    (subStream X t ks).map (rowOf ks) =
      ((timesOf X t ks).map fun s : ℕ => (s : ℝ)).map fun s => fun i => a (ks.get i) + v (ks.get i) * s := by
  set Z := ((X.drop t).zipIdx t).filter fun p => decide (hasAll ks p.1) with hZ
  have e1 : subStream X t ks = Z.map Prod.fst := by
    unfold subStream
    conv_lhs => rw [← List.zipIdx_map_fst t (X.drop t)]
    rw [List.filter_map]
    rfl
  have e2 : timesOf X t ks = Z.map Prod.snd := rfl
  rw [e1, e2, List.map_map, List.map_map, List.map_map]
  apply List.map_congr_left
  intro p hp
  rw [hZ, List.mem_filter] at hp
  have hx := zip_mem hp.1
  have ha : hasAll ks p.1 := by simpa using hp.2
  funext i
  obtain ⟨w, hw⟩ := KDict.get?_isSome.1 (ha _ (List.get_mem ks i))
  show (p.1.get? (ks.get i)).getD 0 = _
  rw [hw]
  exact h p.2 p.1 hx _ w hw

/-- C121: a universe of a `DynamicUniverse` around `EmpiricalCovariance(diff=True)` reports the covariance of the
increments between *consecutive observations that contain all its keys*, however far apart these are. -/
theorem C121_increments (mu ms : ℤ) (X : List (KDict Key)) (nu : ℕ × Universe (empDiffProto true) Key)
    (h : nu ∈ ((DynU.new (empDiffProto true) mu ms).learnMany X).states)
    (c : Matrix (Fin nu.2.keys.length) (Fin nu.2.keys.length) ℝ) (hc : nu.2.est.covariance = .ok c) :
    ∃ (t : ℕ) (x : KDict Key), X[t]? = some x ∧ nu.2.keys = x.keys ∧
      c = covOf (diffs ((subStream X t nu.2.keys).map (rowOf nu.2.keys))) := by
  obtain ⟨t, x, hx, hk, he, -, -⟩ := C45_substream mu ms X nu h
  refine ⟨t, x, hx, hk, ?_⟩
  rw [he] at hc
  by_cases hne : effective true ((subStream X t nu.2.keys).map (rowOf nu.2.keys)) = []
  · exact absurd hc (empDiff_none true _ hne c)
  · rw [(empDiff_cov true _ hne).1] at hc
    cases hc; rfl

/-- C121: on exact linear trends (all increments per time step are constant) the reported covariances are the products of
the slopes times the variance of the gap lengths: irregular observation times appear as risk. -/
theorem C121_trend (mu ms : ℤ) (a v : Key → ℝ) (X : List (KDict Key)) (hX : OnTrend a v X) (nu : ℕ × Universe (empDiffProto true) Key)
    (h : nu ∈ ((DynU.new (empDiffProto true) mu ms).learnMany X).states)
    (c : Matrix (Fin nu.2.keys.length) (Fin nu.2.keys.length) ℝ) (hc : nu.2.est.covariance = .ok c) :
    ∃ (t : ℕ) (x : KDict Key), X[t]? = some x ∧ nu.2.keys = x.keys ∧
      ∀ i j, c i j = v (nu.2.keys.get i) * v (nu.2.keys.get j) * variance (steps ((timesOf X t nu.2.keys).map fun s : ℕ => (s : ℝ))) := by
  obtain ⟨t, x, hx, hk, e⟩ := C121_increments mu ms X nu h c hc
  refine ⟨t, x, hx, hk, fun i j => ?_⟩
  rw [e, subStream_rows hX, diffs_map_line (fun i => a (nu.2.keys.get i)) (fun i => v (nu.2.keys.get i)), covOf_line (fun i => v (nu.2.keys.get i))]

/-- C121: without gaps (every observation contains the universe) exact trends have covariance 0. -/
theorem C121_no_gaps (mu ms : ℤ) (a v : Key → ℝ) (X : List (KDict Key)) (hX : OnTrend a v X) (nu : ℕ × Universe (empDiffProto true) Key)
    (h : nu ∈ ((DynU.new (empDiffProto true) mu ms).learnMany X).states) (hall : ∀ x ∈ X, hasAll nu.2.keys x)
    (c : Matrix (Fin nu.2.keys.length) (Fin nu.2.keys.length) ℝ) (hc : nu.2.est.covariance = .ok c) (i j) : c i j = 0 := by
  obtain ⟨t, x, hx, hk, e⟩ := C121_trend mu ms a v X hX nu h c hc
  have ht : timesOf X t nu.2.keys = List.range' t (X.length - t) := by
    unfold timesOf
    rw [List.filter_eq_self.2]
    · rw [List.zipIdx_map_snd, List.length_drop]
    · intro p hp
      have := zip_mem hp
      exact decide_eq_true (hall _ (List.mem_of_getElem? this))
  rw [e i j, ht, steps_range, variance_const, mul_zero]

/-- The values of `a` lie on a line of slope `v`; it is not in the third observation. -/
noncomputable def gapStream (v : ℝ) : List (KDict String) :=
  [⟨[("a", 0)], by simp⟩, ⟨[("a", v)], by simp⟩, ⟨[("b", 0)], by simp⟩, ⟨[("a", 3 * v)], by simp⟩]

theorem gap_states (P : Proto) (v : ℝ) : ((DynU.new P 10 50).learnMany (gapStream v)).states =
    [(0, ⟨["a"], 0, 3, wrapped P 1 [fun _ => 0, fun _ => v, fun _ => 3 * v]⟩), (1, ⟨["b"], 1, 1, wrapped P 1 [fun _ => 0]⟩)] := by
  have hrow : ∀ (k : String) (w0 : ℝ) (s l : ℕ) (e : Obj (P.cls (List.map Prod.fst [(k, w0)]).length)) (w : ℝ) (h),
      Universe.row (P := P) (Key := String) { keys := List.map Prod.fst [(k, w0)], staleness := s, longevity := l, est := e } ⟨[(k, w)], h⟩ = fun _ => w := by
    intro k w0 s l e w h
    funext i
    change Fin 1 at i
    fin_cases i
    simp [Universe.row, KDict.get?, List.lookup]
  unfold gapStream DynU.learnMany
  simp [DynU.update, DynU.survivors, DynU.touch, DynU.new, Universe.within, Universe.sameKeys, Universe.fresh, Universe.update, KDict.keys]
  simp only [hrow]
  exact ⟨rfl, rfl⟩

theorem covArray_one {P : Proto} (L : Lapack) (D : DynU P Key) (k : Key) (w : ℝ) (hw : 0 < w) (hp : D.pairValue k k = some w) :
    ∃ c : Matrix (Fin 1) (Fin 1) ℝ, D.covArray L (.list [k]) = .ok ⟨[k], c⟩ ∧ c 0 0 = w := by
  have hfull := DynU.covArray_list L D (ks := [k]) (by simp)
  set c : Matrix (Fin 1) (Fin 1) ℝ := Matrix.of fun _ _ => w with hcdef
  have hM : (Matrix.of fun a b : Fin [k].length =>
      (D.pairValue ([k].get a) ([k].get b)).getD (offDiagMean fun a b => D.pairValue ([k].get a) ([k].get b))) = c := by
    ext a b
    change Fin 1 at a b
    have ha : a = 0 := Subsingleton.elim _ _
    have hb : b = 0 := Subsingleton.elim _ _
    subst ha; subst hb
    show (D.pairValue k k).getD _ = w
    rw [hp]; rfl
  have hpd : PD c := by
    refine ⟨fun i j => rfl, fun x hx => ?_⟩
    have hx0 : x 0 ≠ 0 := fun h => hx (by funext i; rw [Subsingleton.elim i 0]; exact h)
    have : quad c x = w * (x 0) ^ 2 := by
      simp [quad, dotProduct, Matrix.mulVec, c]; ring
    rw [this]; positivity
  refine ⟨c, ?_, rfl⟩
  rw [hfull, hM]
  have e := C49_identity L c hpd
  exact congrArg (fun m => Except.ok (⟨[k], m⟩ : KeyedMat Key)) e

/-- C121 (finding): four updates in which `a` grows by exactly `v` per time step, but is not in the third. The increments
per step are constant, so with complete observations the variance is 0 (`C121_no_gaps`); here `DynamicUniverse` answers `v²/4`
(one of its two increments spans two steps) and `FixedUniverse` `2v²/3` (increments `v`, `0`, `2v`). -/
theorem C121_gap_witness (L : Lapack) (v : ℝ) (hv : v ≠ 0) :
    (∃ c : Matrix (Fin 1) (Fin 1) ℝ, ((DynU.new (empDiffProto true) 10 50).learnMany (gapStream v)).covArray L (.list ["a"]) = .ok ⟨["a"], c⟩ ∧
      c 0 0 = v ^ 2 / 4) ∧
    (∃ c : Matrix (Fin 1) (Fin 1) ℝ, ((FixedU.new (empDiffProto true) none "ffill").learnMany (gapStream v)).covArray .all = .ok ⟨["a"], c⟩ ∧
      c 0 0 = 2 * v ^ 2 / 3) := by
  constructor
  · have hc := (empDiff_cov true (d := 1) [fun _ => 0, fun _ => v, fun _ => 3 * v] (by simp [effective, diffs])).1
    have hval : covOf (effective true [fun _ : Fin 1 => (0:ℝ), fun _ => v, fun _ => 3 * v]) 0 0 = v ^ 2 / 4 := by
      simp [covOf, meanOf, effective, diffs]; ring
    have hp : ((DynU.new (empDiffProto true) 10 50).learnMany (gapStream v)).pairValue "a" "a" = some (v ^ 2 / 4) := by
      have hs := DynU.pairValue_says (DynU.inv_run (P := empDiffProto true) 10 50 (gapStream v)) "a" "a"
      rw [gap_states] at hs
      have ht : Tells (P := empDiffProto true) (⟨["a"], 0, 3, wrapped _ 1 [fun _ => 0, fun _ => v, fun _ => 3 * v]⟩ : Universe (empDiffProto true) String) "a" "a" (v ^ 2 / 4) :=
        ⟨_, (0 : Fin 1), (0 : Fin 1), hc, rfl, rfl, hval.symm⟩
      rcases hm : ((DynU.new (empDiffProto true) 10 50).learnMany (gapStream v)).pairValue "a" "a" with _ | w
      · rw [hm] at hs
        exact absurd ht (hs _ (List.mem_cons_self ..) _)
      · rw [hm] at hs
        obtain ⟨nu, hn, ⟨c, i, j, hc', hi, hj, rfl⟩, -⟩ := hs
        simp only [List.mem_cons, List.not_mem_nil, or_false] at hn
        rcases hn with rfl | rfl
        · change (wrapped (empDiffProto true) 1 [fun _ => 0, fun _ => v, fun _ => 3 * v]).covariance = .ok c at hc'
          rw [hc] at hc'
          cases hc'
          change Fin 1 at i j
          rw [Subsingleton.elim i 0, Subsingleton.elim j 0, ← hval]
        · change Fin 1 at i
          fin_cases i
          exact absurd hi (by decide)
    exact covArray_one L _ _ _ (by positivity) hp
  · have hX : gapStream v ≠ [] := by simp [gapStream]
    have gen : ∃ ys : List (Fin 1 → ℝ), FilledBy (empDiffProto true) "ffill" ["a"] (gapStream v) ys ∧
        ((FixedU.new (empDiffProto true) none "ffill").learnMany (gapStream v)).covArray .all
          = (wrapped (empDiffProto true) 1 ys).covariance.map fun c => ⟨["a"], c⟩ := by
      obtain ⟨ys, last, e, hF⟩ := fixed_run (P := empDiffProto true) "ffill" none (gapStream v) hX
      refine ⟨ys, hF, ?_⟩
      rw [e]
      unfold FixedU.covArray
      simp only []
      show _ = (wrapped (empDiffProto true) (universeOf none (gapStream v)).length ys).covariance.map _
      rcases (wrapped (empDiffProto true) (universeOf none (gapStream v)).length ys).covariance with err | c <;> rfl
    obtain ⟨ys, hF, hc⟩ := gen
    obtain ⟨hlen, hf⟩ := hF
    match ys, hlen with
    | [y0, y1, y2, y3], _ =>
      have q0 : y0 (0 : Fin 1) = 0 := (hf 0 _ _ rfl rfl (0 : Fin 1)).1 0 (by simp [KDict.get?, List.lookup])
      have q1 : y1 (0 : Fin 1) = v := (hf 1 _ _ rfl rfl (0 : Fin 1)).1 v (by simp [KDict.get?, List.lookup])
      have q2 : y2 (0 : Fin 1) = v := by
        have := (hf 2 _ _ rfl rfl (0 : Fin 1)).2.1 (by simp [KDict.keys]) rfl
        rw [this]
        simp [lastSeen, gapStream, KDict.get?, List.lookup]
      have q3 : y3 (0 : Fin 1) = 3 * v := (hf 3 _ _ rfl rfl (0 : Fin 1)).1 (3 * v) (by simp [KDict.get?, List.lookup])
      have e := (empDiff_cov true (d := 1) [y0, y1, y2, y3] (by simp [effective, diffs])).1
      rw [e] at hc
      refine ⟨_, hc, ?_⟩
      simp [covOf, meanOf, effective, diffs, q0, q1, q2, q3]; ring
/-! ## FixedUniverse: a key that starts late -/

theorem covOf_diag {d : ℕ} (xs : List (Fin d → ℝ)) (i : Fin d) : covOf xs i i = variance (xs.map fun x => x i) := by
  simp only [covOf, Matrix.of_apply, variance, meanOf, List.map_map, List.length_map]
  rfl

theorem diffs_map_coord {d : ℕ} (xs : List (Fin d → ℝ)) (i : Fin d) : (diffs xs).map (fun x => x i) = steps (xs.map fun x => x i) := by
  induction xs with
  | nil => rfl
  | cons x xs ih =>
    cases xs with
    | nil => rfl
    | cons y xs => simp only [List.map_cons, diffs, steps] at ih ⊢; rw [ih]; rfl

theorem steps_replicate (m : ℕ) (v : ℝ) : steps (List.replicate m v) = List.replicate (m - 1) 0 := by
  induction m with
  | zero => rfl
  | succ m ih =>
    cases m with
    | zero => rfl
    | succ m => simp only [List.replicate_succ, steps] at ih ⊢; rw [ih]; simp [List.replicate_succ]

theorem steps_jump (s m : ℕ) (v : ℝ) :
    steps (List.replicate (s + 1) 0 ++ List.replicate (m + 1) v) = List.replicate s 0 ++ v :: List.replicate m 0 := by
  induction s with
  | zero =>
    have := steps_replicate (m + 1) v
    simp only [List.replicate_succ] at this
    simp only [List.replicate_succ, List.replicate_zero, List.nil_append, List.cons_append, steps]
    rw [this]; simp
  | succ s ih =>
    simp only [List.replicate_succ, List.cons_append, steps] at ih ⊢
    rw [ih]; simp

theorem variance_one (s m : ℕ) (v : ℝ) :
    variance (List.replicate s 0 ++ v :: List.replicate m 0) = v ^ 2 * (1 / ((s + m + 1 : ℕ) : ℝ) - 1 / ((s + m + 1 : ℕ) : ℝ) ^ 2) := by
  have hN : ((s + m + 1 : ℕ) : ℝ) ≠ 0 := by positivity
  have hsum : (List.replicate s (0:ℝ) ++ v :: List.replicate m 0).sum = v := by simp
  have hlen : ((List.replicate s (0:ℝ) ++ v :: List.replicate m 0).length : ℝ) = ((s + m + 1 : ℕ) : ℝ) := by
    congr 1; simp; omega
  unfold variance
  rw [hsum, hlen]
  simp only [List.map_append, List.map_cons, List.map_replicate, List.sum_append, List.sum_cons, List.sum_replicate, nsmul_eq_mul]
  push_cast at hN ⊢
  field_simp
  ring

/-- C121 (finding): `FixedUniverse(EmpiricalCovariance(diff=True), keys=ks)` and a key that enters after `s ≥ 1` updates and
then has the constant value `v`. Whatever `impute` is, its first appearance counts as an increment from 0 to `v`: after `n` updates
its variance is `v² (1/(n-1) - 1/(n-1)²)`, although the key never moved. -/
theorem C121_late_start (impute : String) (ks : List Key) (X Y : List (KDict Key)) (hX : X ≠ []) (hY : Y ≠ []) (i : Fin ks.length) (v : ℝ)
    (habs : ∀ x ∈ X, ks.get i ∉ x.keys) (hpres : ∀ y ∈ Y, y.get? (ks.get i) = some v)
    (c : Matrix (Fin ks.length) (Fin ks.length) ℝ)
    (hc : ((FixedU.new (empDiffProto true) (some ks) impute).learnMany (X ++ Y)).covArray .all = .ok ⟨ks, c⟩) :
    c i i = v ^ 2 * (1 / (((X ++ Y).length : ℝ) - 1) - 1 / (((X ++ Y).length : ℝ) - 1) ^ 2) := by
  obtain ⟨ys, last, e, hF⟩ := fixed_run (P := empDiffProto true) impute (some ks) (X ++ Y) (by simp [hX])
  rw [e] at hc
  have hc' := covArray_live_inv hc
  change List (Fin ks.length → ℝ) at ys
  have hlen : ys.length = (X ++ Y).length := hF.1
  have hls : ∀ t, t ≤ X.length → lastSeen ((X ++ Y).take t) (ks.get i) = 0 := by
    intro t
    induction t with
    | zero => intro _; simp [lastSeen]
    | succ t ih =>
      intro ht
      have hlt : t < (X ++ Y).length := by rw [List.length_append]; omega
      rw [List.take_succ_eq_append_getElem hlt, lastSeen_snoc, List.getElem_append_left (by omega),
        KDict.get?_none (habs _ (List.getElem_mem (by omega)))]
      exact ih (by omega)
  have h0 : ∀ t (ht : t < ys.length), t < X.length → ys[t] i = 0 := by
    intro t
    induction t using Nat.strong_induction_on with
    | _ t ih =>
      intro ht hlt
      have ht' : t < (X ++ Y).length := by rw [← hlen]; exact ht
      obtain ⟨-, f2, f3, f4, f5⟩ := hF.2 t _ _ (List.getElem?_eq_getElem ht') (List.getElem?_eq_getElem ht) i
      have hk : ks.get i ∉ ((X ++ Y)[t]).keys := by
        rw [List.getElem_append_left hlt]; exact habs _ (List.getElem_mem hlt)
      by_cases hff : impute = "ffill"
      · rw [f2 hk hff]; exact hls t (by omega)
      by_cases hme : impute = "mean"
      · by_cases hne : effective true (ys.take t) = []
        · have hn : (wrapped (empDiffProto true) ks.length (ys.take t)).nSamples = 0 := by
            have hu : used true (feedCalls (ys.take t)) = effective true (ys.take t) := by unfold used; rw [rowsSinceFit_feedCalls]; rfl
            have := C04_n_samples (empirical_lawful (Fin ks.length) ℝ) true (feedCalls (ys.take t))
            have h2 : ((Obj.new (empiricalCls (Fin ks.length) ℝ) true).run (feedCalls (ys.take t))).nSamples = (used true (feedCalls (ys.take t))).length := by
              rw [this]
              show _ = (diffs _).length
              generalize rowsSinceFit (feedCalls (ys.take t)) [] = l
              show (if true = true then l.length - 1 else l.length) = _
              simp only [if_true]
              induction l with
              | nil => rfl
              | cons a l ihl =>
                cases l with
                | nil => rfl
                | cons b l => simp only [diffs, List.length_cons] at ihl ⊢; omega
            show ((Obj.new (empiricalCls (Fin ks.length) ℝ) true).run (feedCalls (ys.take t))).nSamples = 0
            rw [h2, hu, hne]; rfl
          rw [f3 hk hme hn]; exact hls t (by omega)
        · rw [f4 hk hme _ (empDiff_cov true (ys.take t) hne).2]
          have hz : ∀ x ∈ diffs (ys.take t), x i = 0 := by
            apply diffs_const _ i 0
            intro x hx
            obtain ⟨u, hu, rfl⟩ := List.getElem_of_mem hx
            rw [List.length_take] at hu
            rw [List.getElem_take]
            exact ih u (by omega) (by omega) (by omega)
          show meanOf (diffs (ys.take t)) i = 0
          unfold meanOf
          rw [List.map_congr_left hz]
          simp
      · exact f5 hk hff hme
  have h1 : ∀ t (ht : t < ys.length), X.length ≤ t → ys[t] i = v := by
    intro t ht hle
    have ht' : t < (X ++ Y).length := by rw [← hlen]; exact ht
    obtain ⟨f1, -⟩ := hF.2 t _ _ (List.getElem?_eq_getElem ht') (List.getElem?_eq_getElem ht) i
    refine f1 v ?_
    rw [List.getElem_append_right hle]
    exact hpres _ (List.getElem_mem _)
  have hcol : ys.map (fun y => y i) = List.replicate X.length 0 ++ List.replicate Y.length v := by
    apply List.ext_getElem
    · simp [hlen]
    · intro t ht1 ht2
      rw [List.getElem_map]
      rw [List.length_map] at ht1
      by_cases hlt : t < X.length
      · rw [h0 t ht1 hlt, List.getElem_append_left (by simpa using hlt)]; simp
      · rw [h1 t ht1 (by omega), List.getElem_append_right (by simpa using hlt)]; simp
  obtain ⟨s, hs⟩ : ∃ s, X.length = s + 1 := ⟨X.length - 1, by have := List.length_pos_iff.2 hX; omega⟩
  obtain ⟨m, hm⟩ : ∃ m, Y.length = m + 1 := ⟨Y.length - 1, by have := List.length_pos_iff.2 hY; omega⟩
  have hne : effective true ys ≠ [] := by
    show diffs ys ≠ []
    intro h
    have := diffs_map_coord ys i
    rw [h, hcol, hs, hm, steps_jump] at this
    simp at this
  have hc2 : (wrapped (empDiffProto true) ks.length ys).covariance = .ok c := hc'
  rw [(empDiff_cov true ys hne).1] at hc2
  cases hc2
  show covOf (diffs ys) i i = _
  rw [covOf_diag, diffs_map_coord, hcol, hs, hm, steps_jump, variance_one]
  rw [List.length_append, hs, hm]
  push_cast
  have : ((s:ℝ) + 1 + (m + 1) - 1) = s + m + 1 := by ring
  rw [this]

/-! ### The hypotheses are met -/

/-- `gapStream` lies on a trend, its first universe has an estimate, and its observation times are 0, 1, 3. -/
example (v : ℝ) : OnTrend (fun _ : String => 0) (fun k => if k = "a" then v else 0) (gapStream v) ∧
    timesOf (gapStream v) 0 ["a"] = [0, 1, 3] ∧ variance (steps [0, 1, 3]) = 1 / 4 ∧
    ∃ nu ∈ ((DynU.new (empDiffProto true) 10 50).learnMany (gapStream v)).states, ∃ c, nu.2.est.covariance = .ok c := by
  refine ⟨?_, ?_, ?_, ?_⟩
  · intro s x hx k w hw
    rw [KDict.get?_eq_some] at hw
    match s, hx with
    | 0, hx => cases hx; simp only [List.mem_singleton, Prod.mk.injEq] at hw; obtain ⟨rfl, rfl⟩ := hw; simp
    | 1, hx => cases hx; simp only [List.mem_singleton, Prod.mk.injEq] at hw; obtain ⟨rfl, rfl⟩ := hw; simp
    | 2, hx => cases hx; simp only [List.mem_singleton, Prod.mk.injEq] at hw; obtain ⟨rfl, rfl⟩ := hw; simp
    | 3, hx => cases hx; simp only [List.mem_singleton, Prod.mk.injEq] at hw; obtain ⟨rfl, rfl⟩ := hw; simp; ring
  · simp [timesOf, gapStream, hasAll, KDict.keys, List.zipIdx, List.filter]
  · simp [variance, steps]; norm_num
  · rw [gap_states]
    exact ⟨_, List.mem_cons_self .., _, (empDiff_cov true (d := 1) [fun _ => 0, fun _ => v, fun _ => 3 * v] (by simp [effective, diffs])).1⟩

/-- A late start: `b` is in the third of three observations. -/
example (c : Matrix (Fin 2) (Fin 2) ℝ) (hc : ((FixedU.new (empDiffProto true) (some ["a", "b"]) "ffill").learnMany
    ([⟨[("a", 0)], by simp⟩, ⟨[("a", 1)], by simp⟩] ++ [⟨[("a", 2), ("b", 100)], by simp⟩])).covArray .all = .ok ⟨["a", "b"], c⟩) : c 1 1 = 2500 := by
  have := C121_late_start "ffill" ["a", "b"] [⟨[("a", 0)], by simp⟩, ⟨[("a", 1)], by simp⟩] [⟨[("a", 2), ("b", 100)], by simp⟩] (by simp) (by simp) (1 : Fin 2) 100
    (by simp [KDict.keys]) (by simp [KDict.get?, List.lookup]) c hc
  rw [this]; norm_num

end Precise
