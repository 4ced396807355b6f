import Verif.Props.Forgetting
import Verif.Props.Jumps

/-!
# C114, continued: raw streams, `correlation_`, PartialMoments, ConditionalCovariance; Tyler never forgets
-/

set_option linter.all false

open Matrix Filter Topology

namespace Precise

open Spec Obj

variable {ι : Type} [Fintype ι] [DecidableEq ι]

/-! ## From observations used to rows observed -/

omit [Fintype ι] [DecidableEq ι] in
theorem diffs_snoc2 (l : List (ι → ℝ)) (u v : ι → ℝ) : diffs (l ++ [u, v]) = diffs (l ++ [u]) ++ [v - u] := by
  induction l with
  | nil => simp [diffs]
  | cons w l ih =>
    cases l with
    | nil => simp [diffs]
    | cons z l => simp only [List.cons_append, diffs] at ih ⊢; rw [ih]

omit [Fintype ι] [DecidableEq ι] in
theorem effective_stream (d : Bool) (a : List (ι → ℝ)) (x : ℕ → ι → ℝ) (k : ℕ) :
    effective d (a ++ firstRows (k + 1) x) = effective d (a ++ [x 0]) ++ firstRows k (fun k => if d then x (k + 1) - x k else x (k + 1)) := by
  induction k with
  | zero => simp [firstRows]
  | succ k ih =>
    have hs : ∀ (k : ℕ) (x : ℕ → ι → ℝ), firstRows (k + 1) x = firstRows k x ++ [x k] := fun k x => by simp [firstRows, List.range_succ]
    rw [hs k (fun k => if d then x (k + 1) - x k else x (k + 1)), ← List.append_assoc, ← ih, hs (k + 1), hs k x]
    cases d
    · simp [effective]
    · simp only [effective, if_true]
      rw [show a ++ (firstRows k x ++ [x k] ++ [x (k + 1)]) = (a ++ firstRows k x) ++ [x k, x (k + 1)] by simp, diffs_snoc2]
      simp

/-- A class that forgets the observations it used forgets the rows it was shown: with `diff=True` the first difference straddles the old and the new
rows, and is forgotten with the old ones. -/
theorem Spec.Forgets.rows {C : Cls ι ℝ} {p : C.Param} (hF : Forgets C p) {a b : List (ι → ℝ)} {x y : ℕ → ι → ℝ}
    (hxy : ∀ i, Merge (fun k => x k i) (fun k => y k i)) {calls calls' : ℕ → List (Call ι ℝ)}
    (hu : ∀ k, rowsSinceFit (calls k) [] = a ++ firstRows k x) (hu' : ∀ k, rowsSinceFit (calls' k) [] = b ++ firstRows k y) :
      (∀ m m' : ℕ → ι → ℝ, (∀ᶠ k in atTop, ((Obj.new C p).run (calls k)).location = .ok (m k)) →
        (∀ᶠ k in atTop, ((Obj.new C p).run (calls' k)).location = .ok (m' k)) → ∀ i, Merge (fun k => m k i) (fun k => m' k i)) ∧
      (∀ c c' : ℕ → Matrix ι ι ℝ, (∀ᶠ k in atTop, ((Obj.new C p).run (calls k)).covariance = .ok (c k)) →
        (∀ᶠ k in atTop, ((Obj.new C p).run (calls' k)).covariance = .ok (c' k)) → ∀ i j, Merge (fun k => c k i j) (fun k => c' k i j)) := by
  have hz : ∀ i, Merge (fun k => (if C.diff p then x (k + 1) - x k else x (k + 1)) i) (fun k => (if C.diff p then y (k + 1) - y k else y (k + 1)) i) := by
    intro i
    cases C.diff p
    · exact (hxy i).unshift
    · exact (hxy i).unshift.sub (hxy i)
  have h := hF (effective (C.diff p) (a ++ [x 0])) (effective (C.diff p) (b ++ [y 0])) _ _ hz (fun k => calls (k + 1)) (fun k => calls' (k + 1))
    (fun k => by unfold used; rw [hu, effective_stream]) (fun k => by unfold used; rw [hu', effective_stream])
  have sh : ∀ {P : ℕ → Prop}, (∀ᶠ k in atTop, P k) → ∀ᶠ k in atTop, P (k + 1) := fun hP => (tendsto_add_atTop_nat 1).eventually hP
  exact ⟨fun m m' hm hm' i => Merge.shift (h.1 (fun k => m (k + 1)) (fun k => m' (k + 1)) (sh hm) (sh hm') i),
    fun c c' hc hc' i j => Merge.shift (h.2 (fun k => c (k + 1)) (fun k => c' (k + 1)) (sh hc) (sh hc') i j)⟩

omit [Fintype ι] [DecidableEq ι] in
theorem effective_two (d : Bool) {xs : List (ι → ℝ)} (h : 2 ≤ xs.length) : effective d xs ≠ [] := by
  match xs, h with
  | x :: y :: t, _ => cases d <;> simp [effective, diffs]

omit [Fintype ι] [DecidableEq ι] in
theorem rowsSinceFit_append (cs : List (Call ι ℝ)) (ys : List (ι → ℝ)) : ∀ acc,
    rowsSinceFit (cs ++ ys.map fun y => (Call.partialFit (.row y) : Call ι ℝ)) acc = rowsSinceFit cs acc ++ ys := by
  induction cs with
  | nil => intro acc; simp [rowsSinceFit, rowsSinceFit_rows]
  | cons c cs ih =>
    intro acc
    rcases c with X | X
    · rcases X with x | xs | e <;> simp only [List.cons_append, rowsSinceFit] <;> exact ih _
    · rcases X with x | xs | e <;> simp only [List.cons_append, rowsSinceFit] <;> exact ih _

/-- C114: for a user: take any two instances of a class that forgets, with any histories at all (`before`, `before'`), and show both the same bounded
stream from now on, row by row. After enough rows (two at least) both report `location_` and `covariance_`, and they agree to within any ε. -/
theorem C114_same_stream {C : Cls ι ℝ} (hC : Lawful C) (p : C.Param) (hF : Forgets C p) (x : ℕ → ι → ℝ) (B : ℝ) (hB : ∀ k i, |x k i| ≤ B)
    (before before' : List (Call ι ℝ)) (ε : ℝ) (hε : 0 < ε) : ∃ N, ∀ k, N ≤ k → ∃ m m' c c',
      let o := (new C p).run (before ++ (firstRows k x).map fun y => .partialFit (.row y))
      let o' := (new C p).run (before' ++ (firstRows k x).map fun y => .partialFit (.row y))
      o.location = .ok m ∧ o'.location = .ok m' ∧ o.covariance = .ok c ∧ o'.covariance = .ok c' ∧
      (∀ i, |m i - m' i| < ε) ∧ ∀ i j, |c i j - c' i j| < ε := by
  have hxx : ∀ i, Merge (fun k => x k i) (fun k => x k i) := fun i => ⟨⟨B, Eventually.of_forall fun k => ⟨hB k i, hB k i⟩⟩, by simp⟩
  set calls : List (Call ι ℝ) → ℕ → List (Call ι ℝ) := fun h k => h ++ (firstRows k x).map fun y => .partialFit (.row y) with hcalls
  have hr : ∀ h k, rowsSinceFit (calls h k) [] = rowsSinceFit h [] ++ firstRows k x := fun h k => rowsSinceFit_append h _ []
  have hne : ∀ h k, 2 ≤ k → used (C.diff p) (calls h k) ≠ [] := fun h k hk => by
    unfold used; rw [hr]
    exact effective_two _ (by rw [List.length_append, firstRows_length]; omega)
  have hl := fun h k hk => run_location hC p (calls h k) (hne h k hk)
  have hc := fun h k hk => run_covariance hC p (calls h k) (hne h k hk)
  have hM := hF.rows hxx (hr before) (hr before')
  have hM1 := hM.1 _ _ ((eventually_ge_atTop 2).mono fun k hk => hl before k hk) ((eventually_ge_atTop 2).mono fun k hk => hl before' k hk)
  have hM2 := hM.2 _ _ ((eventually_ge_atTop 2).mono fun k hk => hc before k hk) ((eventually_ge_atTop 2).mono fun k hk => hc before' k hk)
  have small : ∀ {u v : ℕ → ℝ}, Merge u v → ∀ᶠ k in atTop, |u k - v k| < ε := fun h => by
    have := (Metric.tendsto_nhds.1 h.lim) ε hε
    simpa [Real.dist_eq] using this
  obtain ⟨N, hN⟩ := eventually_atTop.1 ((eventually_all.2 fun i => small (hM1 i)).and (eventually_all.2 fun i => eventually_all.2 fun j => small (hM2 i j)))
  refine ⟨max N 2, fun k hk => ⟨_, _, _, _, hl before k (by omega), hl before' k (by omega), hc before k (by omega), hc before' k (by omega), ?_⟩⟩
  exact hN k (by omega)

theorem merge_covToCorr {S S' : ℕ → Matrix ι ι ℝ} (h : ∀ i j, Merge (fun k => S k i j) (fun k => S' k i j)) (i j : ι) :
    Merge (fun k => covToCorr (S k) i j) (fun k => covToCorr (S' k) i j) := by
  have hc : Continuous fun z : ℝ => 1 / (Real.sqrt z + EPS) := by
    refine continuous_const.div (Real.continuous_sqrt.add continuous_const) fun z => ?_
    have := Real.sqrt_nonneg z
    have : 0 < EPS := by unfold EPS; positivity
    positivity
  refine ((h i j).mul (((h j j).mul (h i i)).map₁ hc)).congr ?_ ?_ <;>
  exact Eventually.of_forall fun k => by simp only [covToCorr, Matrix.of_apply]; ring

theorem corr_inv {C : Cls ι ℝ} {o : Obj C} {R : Matrix ι ι ℝ} (h : o.correlation = .ok R) : ∃ c, o.covariance = .ok c ∧ R = covToCorr c := by
  unfold Obj.correlation at h
  rcases e : o.covariance with e' | c
  · rw [e] at h; simp [Except.map] at h
  · rw [e] at h; exact ⟨c, rfl, by simpa [Except.map] using h.symm⟩

/-- C114: `correlation_` of a class that forgets forgets too. -/
theorem C114_correlation {C : Cls ι ℝ} (p : C.Param) (hF : Forgets C p) (a b : List (ι → ℝ)) (x y : ℕ → ι → ℝ)
    (hxy : ∀ i, Merge (fun k => x k i) (fun k => y k i)) (calls calls' : ℕ → List (Call ι ℝ))
    (hu : ∀ k, used (C.diff p) (calls k) = a ++ firstRows k x) (hu' : ∀ k, used (C.diff p) (calls' k) = b ++ firstRows k y) (R R' : ℕ → Matrix ι ι ℝ)
    (hR : ∀ᶠ k in atTop, ((new C p).run (calls k)).correlation = .ok (R k)) (hR' : ∀ᶠ k in atTop, ((new C p).run (calls' k)).correlation = .ok (R' k)) (i j : ι) :
    Merge (fun k => R k i j) (fun k => R' k i j) := by
  classical
  have pick : ∀ (cs : ℕ → List (Call ι ℝ)) (R : ℕ → Matrix ι ι ℝ), (∀ᶠ k in atTop, ((new C p).run (cs k)).correlation = .ok (R k)) →
      ∃ c : ℕ → Matrix ι ι ℝ, ∀ᶠ k in atTop, ((new C p).run (cs k)).covariance = .ok (c k) ∧ R k = covToCorr (c k) := by
    intro cs R h
    refine ⟨fun k => if e : ∃ c, ((new C p).run (cs k)).covariance = .ok c ∧ R k = covToCorr c then e.choose else 0, ?_⟩
    filter_upwards [h] with k hk
    have e := corr_inv hk
    rw [dif_pos e]; exact e.choose_spec
  obtain ⟨c, hc⟩ := pick calls R hR
  obtain ⟨c', hc'⟩ := pick calls' R' hR'
  refine (merge_covToCorr ((hF a b x y hxy calls calls' hu hu').2 c c' (hc.mono fun k h => h.1) (hc'.mono fun k h => h.1)) i j).congr ?_ ?_
  · exact hc.mono fun k h => by rw [h.2]
  · exact hc'.mono fun k h => by rw [h.2]

/-! ## `location_` of the classes whose covariance is not covered -/

/-- C114: `location_` of PartialMoments, Tyler and GeodesicEwa forgets. -/
theorem C114_locations (L : Lapack) (p : RParam ℝ) (h0 : 0 < p.r) (h1 : p.r ≤ 1) (a b : List (ι → ℝ)) (x y : ℕ → ι → ℝ)
    (hxy : ∀ i, Merge (fun k => x k i) (fun k => y k i)) (calls calls' : ℕ → List (Call ι ℝ))
    (hu : ∀ k, used p.diff (calls k) = a ++ firstRows k x) (hu' : ∀ k, used p.diff (calls' k) = b ++ firstRows k y) (m m' : ℕ → ι → ℝ) (i : ι) :
    ((∀ᶠ k in atTop, ((new (partialMomentsCls L ι) p).run (calls k)).location = .ok (m k)) →
      (∀ᶠ k in atTop, ((new (partialMomentsCls L ι) p).run (calls' k)).location = .ok (m' k)) → Merge (fun k => m k i) (fun k => m' k i)) ∧
    ((∀ᶠ k in atTop, ((new (tylerCls L ι) p).run (calls k)).location = .ok (m k)) →
      (∀ᶠ k in atTop, ((new (tylerCls L ι) p).run (calls' k)).location = .ok (m' k)) → Merge (fun k => m k i) (fun k => m' k i)) ∧
    ((∀ᶠ k in atTop, ((new (geodesicCls L ι) p).run (calls k)).location = .ok (m k)) →
      (∀ᶠ k in atTop, ((new (geodesicCls L ι) p).run (calls' k)).location = .ok (m' k)) → Merge (fun k => m k i) (fun k => m' k i)) := by
  have h := fun k => C22_same_location_real L p 0 "" (calls k)
  have h' := fun k => C22_same_location_real L p 0 "" (calls' k)
  have key := (C114_ewa p h0 h1 a b x y hxy calls calls' hu hu').1 m m'
  refine ⟨fun e e' => key ?_ ?_ i, fun e e' => key ?_ ?_ i, fun e e' => key ?_ ?_ i⟩
  · simpa only [(h _).2.1] using e
  · simpa only [(h' _).2.1] using e'
  · simpa only [(h _).2.2.1] using e
  · simpa only [(h' _).2.2.1] using e'
  · simpa only [(h _).2.2.2] using e
  · simpa only [(h' _).2.2.2] using e'

/-- C114: `location_` of SchurConditionalCovariance forgets. -/
theorem C114_schurConditional_location (L : Lapack) {d : ℕ} (hd : 1 ≤ d) (p : BlockParam) (h0 : 0 < p.r) (h1 : p.r ≤ 1) (a b : List (Fin d → ℝ)) (x y : ℕ → Fin d → ℝ)
    (hxy : ∀ i, Merge (fun k => x k i) (fun k => y k i)) (calls calls' : ℕ → List (Call (Fin d) ℝ))
    (hu : ∀ k, used p.diff (calls k) = a ++ firstRows k x) (hu' : ∀ k, used p.diff (calls' k) = b ++ firstRows k y) (m m' : ℕ → Fin d → ℝ)
    (e : ∀ᶠ k in atTop, ((new (schurCondCls L d) p).run (calls k)).location = .ok (m k))
    (e' : ∀ᶠ k in atTop, ((new (schurCondCls L d) p).run (calls' k)).location = .ok (m' k)) (i : Fin d) : Merge (fun k => m k i) (fun k => m' k i) := by
  have h := fun k => (C22_same_location_blocks L hd (⟨p.r, p.diff⟩ : RParam ℝ) p.nBlocks 0 "" (calls k)).2.2.2
  have h' := fun k => (C22_same_location_blocks L hd (⟨p.r, p.diff⟩ : RParam ℝ) p.nBlocks 0 "" (calls' k)).2.2.2
  refine (C114_ewa (⟨p.r, p.diff⟩ : RParam ℝ) h0 h1 a b x y hxy calls calls' hu hu').1 m m' ?_ ?_ i
  · exact e.mono fun k hk => (h k).symm.trans hk
  · exact e'.mono fun k hk => (h' k).symm.trans hk

/-! ## PartialMoments -/

/-- C114: PartialMomentsCovariance forgets, up to the last bit its repair may add: `covariance_` is `P` or `P + spacing(‖S‖)·1` where `P` and `S` forget
(`spacing` is `np.spacing`, about 1e-16 of the norm). -/
theorem C114_partialMoments (L : Lapack) (p : RParam ℝ) (h0 : 0 < p.r) (h1 : p.r ≤ 1) (a b : List (ι → ℝ)) (x y : ℕ → ι → ℝ)
    (hxy : ∀ i, Merge (fun k => x k i) (fun k => y k i)) (calls calls' : ℕ → List (Call ι ℝ))
    (hu : ∀ k, used p.diff (calls k) = a ++ firstRows k x) (hu' : ∀ k, used p.diff (calls' k) = b ++ firstRows k y) :
    ∃ S P S' P' : ℕ → Matrix ι ι ℝ, (∀ i j, Merge (fun k => S k i j) (fun k => S' k i j)) ∧ (∀ i j, Merge (fun k => P k i j) (fun k => P' k i j)) ∧
      (∀ k c, ((new (partialMomentsCls L ι) p).run (calls k)).covariance = .ok c →
        c = P k ∨ c = P k + L.spacing (Real.sqrt (∑ i, ∑ j, S k i j ^ 2)) • (1 : Matrix ι ι ℝ)) ∧
      (∀ k c, ((new (partialMomentsCls L ι) p).run (calls' k)).covariance = .ok c →
        c = P' k ∨ c = P' k + L.spacing (Real.sqrt (∑ i, ∑ j, S' k i j ^ 2)) • (1 : Matrix ι ι ℝ)) := by
  have post : ∀ (a : List (ι → ℝ)) (x : ℕ → ι → ℝ) (i j : ι), ∀ᶠ k in atTop, pmSum p.r (a ++ firstRows (k + 1) x) i j = (1 - p.r) * pmSum p.r (a ++ firstRows k x) i j +
      p.r * ((x k i - (ewaFold p.r (a ++ firstRows k x)).mean i) * (x k j - (ewaFold p.r (a ++ firstRows k x)).mean j)) := by
    intro a x i j
    filter_upwards [eventually_ge_atTop (ewaBurnN p.r)] with k hk
    rw [firstRows_succ, ← List.append_assoc, pmSum_post p.r _ _ (by rw [List.length_append, firstRows_length]; omega)]
    simp [outer]
  have hS0 : ∀ i j, Merge (fun k => pmSum p.r (a ++ firstRows k x) i j) (fun k => pmSum p.r (b ++ firstRows k y) i j) := fun i j =>
    Merge.ewa h0 h1 (((hxy i).sub (ewa_merge_mean h0 h1 hxy a b i)).mul ((hxy j).sub (ewa_merge_mean h0 h1 hxy a b j))) (post a x i j) (post b y i j)
  have hS : ∀ i j, Merge (fun k => toSymmetric (pmSum p.r (a ++ firstRows k x)) i j) (fun k => toSymmetric (pmSum p.r (b ++ firstRows k y)) i j) := fun i j =>
    (((hS0 i j).add (hS0 j i)).mul (Merge.const (1 / 2))).congr (Eventually.of_forall fun k => by simp only [toSymmetric, Matrix.of_apply]; ring)
      (Eventually.of_forall fun k => by simp only [toSymmetric, Matrix.of_apply]; ring)
  refine ⟨_, fun k => makePosDef L (toSymmetric (pmSum p.r (a ++ firstRows k x))) 0, _, fun k => makePosDef L (toSymmetric (pmSum p.r (b ++ firstRows k y))) 0, hS, fun i j => ?_, ?_, ?_⟩
  · exact Merge.matrix (A := Set.univ) isClosed_univ (fun z => makePosDef L z.1 0 i j) (by
      have := continuous_makePosDef L (T := ↥(Set.univ : Set (ι → ι → ℝ)) × ℝ) (a := fun t => Matrix.of t.1.1) (continuous_matrix fun i j =>
          (show Continuous fun t : ↥(Set.univ : Set (ι → ι → ℝ)) × ℝ => t.1.1 i j from
            (continuous_apply j).comp ((continuous_apply i).comp (continuous_subtype_val.comp continuous_fst)))) 0
      exact this.matrix_elem i j) (fun _ => trivial) (fun _ => trivial) hS (Merge.const 0)
  · intro k c hc
    obtain ⟨-, e⟩ := pm_attrs L p (calls k) c hc
    rw [e, hu]
    have := (C49_terminates L (toSymmetric (pmSum p.r (a ++ firstRows k x))) 2 le_rfl).2
    simpa only [frobNorm, ← sq] using this
  · intro k c hc
    obtain ⟨-, e⟩ := pm_attrs L p (calls' k) c hc
    rw [e, hu']
    have := (C49_terminates L (toSymmetric (pmSum p.r (b ++ firstRows k y))) 2 le_rfl).2
    simpa only [frobNorm, ← sq] using this

/-! ## ConditionalCovariance -/

section Cond

variable {V : Cls (Fin 1) ℝ} {Sk : Type} {C : Cls ι ℝ}

omit [Fintype ι] [DecidableEq ι] in
theorem firstRows_map {κ : Type} (k : ℕ) (x : ℕ → ι → ℝ) (f : (ι → ℝ) → κ → ℝ) : (firstRows k x).map f = firstRows k fun k => f (x k) := by
  simp [firstRows]

/-- The forecasts of a volatility model that forgets. -/
theorem merge_forecasts (hV : Lawful V) (o : Obj V) (fv : Forgets V o.params) {a b : List (ι → ℝ)} {x y : ℕ → ι → ℝ}
    (hxy : ∀ i, Merge (fun k => x k i) (fun k => y k i)) (i : ι) :
    Merge (fun k => forecastMean (.est o : VolArg V Sk) ((a ++ firstRows k x).map fun x => x i)) (fun k => forecastMean (.est o : VolArg V Sk) ((b ++ firstRows k y).map fun x => x i)) ∧
    Merge (fun k => forecastVar (.est o : VolArg V Sk) ((a ++ firstRows k x).map fun x => x i)) (fun k => forecastVar (.est o : VolArg V Sk) ((b ++ firstRows k y).map fun x => x i)) := by
  set cs : List (ι → ℝ) → List (Call (Fin 1) ℝ) := fun xs => (xs.map fun x => x i).map fun y => .partialFit (.row fun _ => y) with hcs
  have hr : ∀ (a : List (ι → ℝ)) (x : ℕ → ι → ℝ) (k : ℕ), rowsSinceFit (cs (a ++ firstRows k x)) [] = (a.map fun x (_ : Fin 1) => x i) ++ firstRows k fun k (_ : Fin 1) => x k i := by
    intro a x k
    have := rowsSinceFit_rows ((a ++ firstRows k x).map fun x (_ : Fin 1) => x i) []
    simp only [List.map_map, List.nil_append] at this
    simp only [hcs, List.map_map]
    refine this.trans ?_
    rw [List.map_append, firstRows_map]
  have hne : ∀ (a : List (ι → ℝ)) (x : ℕ → ι → ℝ) (k : ℕ), 2 ≤ k → used (V.diff o.params) (cs (a ++ firstRows k x)) ≠ [] := fun a x k hk => by
    unfold used; rw [hr]
    exact effective_two _ (by rw [List.length_append, firstRows_length]; omega)
  have h := fv.rows (x := fun k (_ : Fin 1) => x k i) (y := fun k (_ : Fin 1) => y k i) (fun _ => hxy i) (hr a x) (hr b y)
  have em : ∀ (a : List (ι → ℝ)) (x : ℕ → ι → ℝ), ∀ᶠ k in atTop, ((new V o.params).run (cs (a ++ firstRows k x))).location =
      .ok fun _ => forecastMean (.est o : VolArg V Sk) ((a ++ firstRows k x).map fun x => x i) := by
    intro a x
    filter_upwards [eventually_ge_atTop 2] with k hk
    have hl := run_location hV o.params _ (hne a x k hk)
    unfold forecastMean volAfter
    simp only [hcs] at hl ⊢
    rw [hl]
    refine congrArg _ (funext fun j => ?_)
    rw [Subsingleton.elim j 0]
  have ev : ∀ (a : List (ι → ℝ)) (x : ℕ → ι → ℝ), ∀ᶠ k in atTop, ((new V o.params).run (cs (a ++ firstRows k x))).covariance =
      .ok (Matrix.of fun _ _ => forecastVar (.est o : VolArg V Sk) ((a ++ firstRows k x).map fun x => x i)) := by
    intro a x
    filter_upwards [eventually_ge_atTop 2] with k hk
    have hl := run_covariance hV o.params _ (hne a x k hk)
    unfold forecastVar volAfter
    simp only [hcs] at hl ⊢
    rw [hl]
    refine congrArg _ (Matrix.ext fun j j' => ?_)
    rw [Subsingleton.elim j 0, Subsingleton.elim j' 0]; rfl
  exact ⟨h.1 _ _ (em a x) (em b y) 0, h.2 _ _ (ev a x) (ev b y) 0 0⟩

omit [Fintype ι] [DecidableEq ι] in
/-- The residuals of a longer history: those of the shorter one, then one per further row. -/
theorem residuals_stream (vol : VolArg V Sk) (a : List (ι → ℝ)) (x : ℕ → ι → ℝ) (k : ℕ) :
    (List.range (a ++ firstRows k x).length).map (standardized vol (a ++ firstRows k x))
      = (List.range a.length).map (standardized vol a) ++ firstRows k fun k i => (x k i - forecastMean vol ((a ++ firstRows k x).map fun x => x i)) /
          Real.sqrt (max (forecastVar vol ((a ++ firstRows k x).map fun x => x i)) (1 / 10 ^ 12)) := by
  have hlen : (a ++ firstRows k x).length = a.length + k := by simp [firstRows]
  rw [hlen, List.range_add, List.map_append]
  congr 1
  · refine List.map_congr_left fun t ht => ?_
    have ht := List.mem_range.1 ht
    funext i
    unfold standardized
    rw [List.take_append_of_le_length ht.le, List.getD_append _ _ _ _ ht]
  · rw [firstRows, List.map_map]
    refine List.map_congr_left fun t ht => ?_
    have ht := List.mem_range.1 ht
    funext i
    have e1 : (a ++ firstRows k x).take (a.length + t) = a ++ firstRows t x := by
      rw [List.take_append, List.take_of_length_le (by omega), Nat.add_sub_cancel_left]
      congr 1
      simp only [firstRows, ← List.map_take, List.take_range, min_eq_left ht.le]
    have e2 : (a ++ firstRows k x).getD (a.length + t) 0 = x t := by
      rw [List.getD_append_right _ _ _ _ (by omega), Nat.add_sub_cancel_left]
      simp [firstRows, List.getD_eq_getElem?_getD, ht]
    simp only [Function.comp, standardized, e1]
    rw [show (a ++ List.map x (List.range k)) = a ++ firstRows k x from rfl, e1, e2]

/-- C114: ConditionalCovariance of a volatility estimator and a correlation estimator that both forget. -/
theorem C114_conditional (hV : Lawful V) (hC : Lawful C) (o : Obj V) (corr : Obj C) (fv : Forgets V o.params) (fc : Forgets C corr.params)
    (a b : List (ι → ℝ)) (x y : ℕ → ι → ℝ) (hxy : ∀ i, Merge (fun k => x k i) (fun k => y k i)) (calls calls' : ℕ → List (Call ι ℝ))
    (hu : ∀ k, rowsSinceFit (calls k) [] = a ++ firstRows k x) (hu' : ∀ k, rowsSinceFit (calls' k) [] = b ++ firstRows k y) :
    (∀ m m' : ℕ → ι → ℝ, (∀ᶠ k in atTop, ((CondObj.new (.est o : VolArg V Sk) corr).run (calls k)).location = .ok (m k)) →
      (∀ᶠ k in atTop, ((CondObj.new (.est o : VolArg V Sk) corr).run (calls' k)).location = .ok (m' k)) → ∀ i, Merge (fun k => m k i) (fun k => m' k i)) ∧
    (∀ c c' : ℕ → Matrix ι ι ℝ, (∀ᶠ k in atTop, ((CondObj.new (.est o : VolArg V Sk) corr).run (calls k)).covariance = .ok (c k)) →
      (∀ᶠ k in atTop, ((CondObj.new (.est o : VolArg V Sk) corr).run (calls' k)).covariance = .ok (c' k)) → ∀ i j, Merge (fun k => c k i j) (fun k => c' k i j)) := by
  have hEPS : (0:ℝ) < 1 / 10 ^ 12 := by positivity
  have hf := fun i => merge_forecasts (Sk := Sk) hV o fv (a := a) (b := b) hxy i
  have comp := fun k => C40_composition (.est o : VolArg V Sk) (by simp) corr (calls k)
  have comp' := fun k => C40_composition (.est o : VolArg V Sk) (by simp) corr (calls' k)
  simp only [hu] at comp
  simp only [hu'] at comp'
  have hne : ∀ (a : List (ι → ℝ)) (x : ℕ → ι → ℝ) (k : ℕ), 1 ≤ k → a ++ firstRows k x ≠ [] := fun a x k hk h => by
    have := congrArg List.length h; rw [List.length_append, firstRows_length, List.length_nil] at this; omega
  constructor
  · intro m m' hm hm' i
    refine (hf i).1.congr ?_ ?_
    · filter_upwards [hm, eventually_ge_atTop 1] with k e hk
      have := ((comp k).2.2 (hne a x k hk)).1
      rw [e] at this
      rw [Except.ok.inj this]
    · filter_upwards [hm', eventually_ge_atTop 1] with k e hk
      have := ((comp' k).2.2 (hne b y k hk)).1
      rw [e] at this
      rw [Except.ok.inj this]
  · intro c c' hc hc' i j
    -- the standardized residuals merge
    have csq : Continuous fun z : ℝ => Real.sqrt (max z (1 / 10 ^ 12)) := Real.continuous_sqrt.comp (continuous_id.max continuous_const)
    have cinv : Continuous fun z : ℝ => 1 / Real.sqrt (max z (1 / 10 ^ 12)) :=
      continuous_const.div csq fun t => (Real.sqrt_pos.2 (lt_max_of_lt_right hEPS)).ne'
    have hres : ∀ i, Merge (fun k => (x k i - forecastMean (.est o : VolArg V Sk) ((a ++ firstRows k x).map fun x => x i)) /
          Real.sqrt (max (forecastVar (.est o : VolArg V Sk) ((a ++ firstRows k x).map fun x => x i)) (1 / 10 ^ 12)))
        (fun k => (y k i - forecastMean (.est o : VolArg V Sk) ((b ++ firstRows k y).map fun x => x i)) /
          Real.sqrt (max (forecastVar (.est o : VolArg V Sk) ((b ++ firstRows k y).map fun x => x i)) (1 / 10 ^ 12))) := by
      intro i
      refine (((hxy i).sub (hf i).1).mul ((hf i).2.map₁ cinv)).congr ?_ ?_ <;> exact Eventually.of_forall fun k => div_eq_mul_one_div _ _
    set fcalls : List (ι → ℝ) → List (Call ι ℝ) := fun xs => feedCalls ((List.range xs.length).map (standardized (.est o : VolArg V Sk) xs)) with hfc
    have hr : ∀ (a : List (ι → ℝ)) (x : ℕ → ι → ℝ) (k : ℕ), rowsSinceFit (fcalls (a ++ firstRows k x)) [] = (List.range a.length).map (standardized (.est o : VolArg V Sk) a) ++
        firstRows k fun k i => (x k i - forecastMean (.est o : VolArg V Sk) ((a ++ firstRows k x).map fun x => x i)) /
          Real.sqrt (max (forecastVar (.est o : VolArg V Sk) ((a ++ firstRows k x).map fun x => x i)) (1 / 10 ^ 12)) := by
      intro a x k
      rw [hfc, rowsSinceFit_feedCalls, List.nil_append, residuals_stream]
    have hne2 : ∀ (a : List (ι → ℝ)) (x : ℕ → ι → ℝ) (k : ℕ), 2 ≤ k → used (C.diff corr.params) (fcalls (a ++ firstRows k x)) ≠ [] := fun a x k hk => by
      unfold used; rw [hr]
      exact effective_two _ (by rw [List.length_append, firstRows_length]; omega)
    have hcov := fun (a : List (ι → ℝ)) (x : ℕ → ι → ℝ) (k : ℕ) (hk : 2 ≤ k) => run_covariance hC corr.params _ (hne2 a x k hk)
    have hM := (fc.rows hres (hr a x) (hr b y)).2 _ _ ((eventually_ge_atTop 2).mono fun k hk => hcov a x k hk) ((eventually_ge_atTop 2).mono fun k hk => hcov b y k hk)
    have hR := merge_covToCorr hM
    refine ((((hf i).2.map₁ csq).mul (hR i j)).mul ((hf j).2.map₁ csq)).congr ?_ ?_
    · filter_upwards [hc, eventually_ge_atTop 2] with k e hk
      have := ((comp k).2.2 (hne a x k (by omega))).2.2 _ (by unfold Obj.correlation; rw [hcov a x k hk]; rfl)
      rw [e] at this
      rw [Except.ok.inj this]; rfl
    · filter_upwards [hc', eventually_ge_atTop 2] with k e hk
      have := ((comp' k).2.2 (hne b y k (by omega))).2.2 _ (by unfold Obj.correlation; rw [hcov b y k hk]; rfl)
      rw [e] at this
      rw [Except.ok.inj this]; rfl

/-- C114: for example: the default kind of ConditionalCovariance, exponentially weighted volatilities (`diff` either way) and correlations. -/
theorem C114_conditional_ewa (pv pc : RParam ℝ) (v0 : 0 < pv.r) (v1 : pv.r ≤ 1) (c0 : 0 < pc.r) (c1 : pc.r ≤ 1)
    (a b : List (ι → ℝ)) (x y : ℕ → ι → ℝ) (hxy : ∀ i, Merge (fun k => x k i) (fun k => y k i)) (calls calls' : ℕ → List (Call ι ℝ))
    (hu : ∀ k, rowsSinceFit (calls k) [] = a ++ firstRows k x) (hu' : ∀ k, rowsSinceFit (calls' k) [] = b ++ firstRows k y)
    (c c' : ℕ → Matrix ι ι ℝ) (hc : ∀ᶠ k in atTop, ((CondObj.new (.est (new (ewaCls (Fin 1) ℝ) pv) : VolArg _ Unit) (new (ewaCls ι ℝ) pc)).run (calls k)).covariance = .ok (c k))
    (hc' : ∀ᶠ k in atTop, ((CondObj.new (.est (new (ewaCls (Fin 1) ℝ) pv) : VolArg _ Unit) (new (ewaCls ι ℝ) pc)).run (calls' k)).covariance = .ok (c' k)) (i j : ι) :
    Merge (fun k => c k i j) (fun k => c' k i j) :=
  (C114_conditional (ewa_lawful (Fin 1) ℝ) (ewa_lawful ι ℝ) (new (ewaCls (Fin 1) ℝ) pv) (new (ewaCls ι ℝ) pc) (C114_ewa pv v0 v1) (C114_ewa pc c0 c1)
    a b x y hxy calls calls' hu hu').2 c c' hc hc' i j

end Cond

/-! ## Tyler never forgets -/

/-- TylerCovariance: after a first observation `v ≠ 0` and any number of multiples of it, the shape is the projector on `v`, times p. -/
theorem tyler_stuck (L : Lapack) [Nonempty ι] (pr : RParam ℝ) (h0 : 0 < pr.r) (h1 : pr.r < 1) (v : ι → ℝ) (hv : v ≠ 0) (ts : List ℝ) :
    (tylerFold L pr (v :: ts.map fun t => t • v)).shape = some (((Fintype.card ι : ℝ) / normSq v) • outer v v) ∧
    ∃ s : ℝ, (tylerFold L pr (v :: ts.map fun t => t • v)).mean = s • v := by
  have hp : (0:ℝ) < (Fintype.card ι : ℝ) := by exact_mod_cast Fintype.card_pos
  have hn : 0 < normSq v := Precise.normSq_pos hv
  induction ts using List.reverseRecOn with
  | nil =>
    refine ⟨tyler_first_any L pr v hv, 1, ?_⟩
    have h1 : 1 ≤ ewaBurnN pr.r := by have := ewaBurnN_ge pr.r; omega
    show (tylerUpdate L _ v).mean = _
    unfold tylerUpdate
    simp [h1]
  | append_singleton ts t ih =>
    obtain ⟨hs, s, hm⟩ := ih
    obtain ⟨f1, f2, f3, -⟩ := tylerFold_fields L pr (v :: ts.map fun t => t • v)
    rw [List.map_append, List.map_singleton, ← List.cons_append, tylerFold_snoc]
    generalize tylerFold L pr (v :: ts.map fun t => t • v) = st at *
    have hn1 : st.nSamples + 1 = ts.length + 2 := by rw [f1]; simp
    have hdev : (fun i => (t • v) i - st.mean i) = (t - s) • v := by rw [hm]; funext i; simp; ring
    constructor
    · unfold tylerUpdate
      simp only [hs, Option.bind_some, hdev, f2, f3, hn1]
      set lr : ℝ := if ts.length + 2 ≤ ewaBurnN pr.r then 1 / ((ts.length + 2 : ℕ) : ℝ) else pr.r with hlr
      have l0 : 0 < lr := by rw [hlr]; split <;> positivity
      have l1 : lr < 1 := by
        rw [hlr]; split
        · rw [div_lt_one (by positivity)]; push_cast; linarith [Nat.cast_nonneg (α := ℝ) ts.length]
        · exact h1
      unfold tylerShape
      simp only []
      set q := max (quad (tryInvert L (((Fintype.card ι : ℝ) / normSq v) • outer v v)) ((t - s) • v)) EPS with hq
      have hq0 : 0 < q := lt_max_of_lt_right (by unfold EPS; positivity)
      have e : (1 - lr) • (((Fintype.card ι : ℝ) / normSq v) • outer v v) + (lr * (Fintype.card ι : ℝ) / q) • outer ((t - s) • v) ((t - s) • v)
          = ((1 - lr) * ((Fintype.card ι : ℝ) / normSq v) + lr * (Fintype.card ι : ℝ) / q * (t - s) ^ 2) • outer v v := by
        ext i j; simp [outer]; ring
      rw [e]
      set g := (1 - lr) * ((Fintype.card ι : ℝ) / normSq v) + lr * (Fintype.card ι : ℝ) / q * (t - s) ^ 2 with hg
      have hg0 : 0 < g := by
        have : 0 < (1 - lr) * ((Fintype.card ι : ℝ) / normSq v) := mul_pos (by linarith) (by positivity)
        have : 0 ≤ lr * (Fintype.card ι : ℝ) / q * (t - s) ^ 2 := by positivity
        linarith
      have htr : (g • outer v v).trace = g * normSq v := by rw [trace_smul, trace_outer]; rfl
      rw [htr, if_neg (by positivity), smul_smul]
      congr 2
      field_simp
    · unfold tylerUpdate
      simp only [hm, f2, f3, hn1]
      split
      · refine ⟨s + (t - s) / ((ts.length + 2 : ℕ) : ℝ), ?_⟩
        funext i; simp; ring
      · refine ⟨(1 - pr.r) * s + pr.r * t, ?_⟩
        funext i; simp; ring

/-- C114 (finding): TylerCovariance (two variables, `0 < r < 1`, `diff=False`) never forgets: two instances that start with `(1, 0)` and with `(0, 1)` and
see nothing but zero rows from then on, as many as you like, report `covariance_` diag(≈1, 0) and diag(0, ≈1) for ever. -/
theorem C114_tyler_never (L : Lapack) (r : ℝ) (h0 : 0 < r) (h1 : r < 1) (k : ℕ) (calls calls' : List (Call (Fin 2) ℝ))
    (hu : used false calls = ![1, 0] :: List.replicate k 0) (hu' : used false calls' = ![0, 1] :: List.replicate k 0) :
    ((new (tylerCls L (Fin 2)) (⟨r, false⟩ : RParam ℝ)).run calls).covariance = .ok !![2 / (2 + 1 / 10 ^ 12), 0; 0, 0] ∧
    ((new (tylerCls L (Fin 2)) (⟨r, false⟩ : RParam ℝ)).run calls').covariance = .ok !![0, 0; 0, 2 / (2 + 1 / 10 ^ 12)] := by
  have key : ∀ (v : Fin 2 → ℝ), v ≠ 0 → ∀ calls : List (Call (Fin 2) ℝ), used false calls = v :: List.replicate k 0 →
      ((new (tylerCls L (Fin 2)) (⟨r, false⟩ : RParam ℝ)).run calls).covariance = .ok (covToCorr ((2 / normSq v) • outer v v)) := by
    intro v hv calls hu
    have hne : used false calls ≠ [] := by rw [hu]; simp
    have hcov := run_covariance (tyler_lawful L (Fin 2)) (⟨r, false⟩ : RParam ℝ) calls hne
    have hs := (tyler_stuck L (⟨r, false⟩ : RParam ℝ) h0 h1 v hv (List.replicate k 0)).1
    rw [List.map_replicate, zero_smul] at hs
    have e : (tylerCls L (Fin 2)).toCov (⟨r, false⟩ : RParam ℝ) (List.foldl ((tylerCls L (Fin 2)).updateState (⟨r, false⟩ : RParam ℝ))
        ((tylerCls L (Fin 2)).initState (⟨r, false⟩ : RParam ℝ)) (used false calls)) = covToCorr ((2 / normSq v) • outer v v) := by
      show ((tylerFold L (⟨r, false⟩ : RParam ℝ) (used false calls)).shape.map covToCorr).getD 0 = _
      rw [hu, hs]; simp
    have hP : PSD ((2 / normSq v) • outer v v) := (psd_outer _).smul (by have := normSq_nonneg v; positivity)
    rw [show (tylerCls L (Fin 2)).diff (⟨r, false⟩ : RParam ℝ) = false from rfl, e, toSymmetric_of_symm (symm_covToCorr hP.1)] at hcov
    exact hcov
  have hsq : Real.sqrt (2 * 2) = 2 := Real.sqrt_mul_self (by norm_num)
  constructor
  · rw [key ![1, 0] (fun h => by have := congrFun h 0; simp at this) calls hu]
    congr 1
    ext i j
    fin_cases i <;> fin_cases j <;> simp [covToCorr, outer, normSq, EPS, hsq]
  · rw [key ![0, 1] (fun h => by have := congrFun h 1; simp at this) calls' hu']
    congr 1
    ext i j
    fin_cases i <;> fin_cases j <;> simp [covToCorr, outer, normSq, EPS, hsq]

/-- C114 (finding), in the words of the specification. -/
theorem C114_tyler (L : Lapack) (r : ℝ) (h0 : 0 < r) (h1 : r < 1) : ¬ Forgets (tylerCls L (Fin 2)) (⟨r, false⟩ : RParam ℝ) := by
  intro h
  set calls : (Fin 2 → ℝ) → ℕ → List (Call (Fin 2) ℝ) := fun v k => [.partialFit (.batch (v :: List.replicate k 0))] with hcalls
  have hz : ∀ k, firstRows k (fun _ => (0 : Fin 2 → ℝ)) = List.replicate k 0 := fun k => List.eq_replicate_iff.2 ⟨firstRows_length _ _, fun b hb => by
    obtain ⟨t, -, rfl⟩ := List.mem_map.1 hb; rfl⟩
  have hu : ∀ v k, used false (calls v k) = v :: List.replicate k 0 := fun v k => by rw [hcalls]; exact used_batch _
  have hT := fun k => C114_tyler_never L r h0 h1 k _ _ (hu ![1, 0] k) (hu ![0, 1] k)
  have := (h [![1, 0]] [![0, 1]] (fun _ => 0) (fun _ => 0) (fun i => Merge.const 0) (calls ![1, 0]) (calls ![0, 1])
    (fun k => by rw [hz]; exact hu _ k) (fun k => by rw [hz]; exact hu _ k)).2 _ _ (Eventually.of_forall fun k => (hT k).1) (Eventually.of_forall fun k => (hT k).2) 0 0
  have hl := this.lim
  simp only [Matrix.of_apply, Matrix.cons_val_zero, sub_zero] at hl
  have := tendsto_nhds_unique hl tendsto_const_nhds
  norm_num at this

/-! ## The hypotheses are met -/

/-- Two histories, then the same stream `1, -1, 1, -1, …`: the attributes exist and the hypotheses of every theorem above hold. -/
example : ∃ (a b : List (Fin 2 → ℝ)) (x : ℕ → Fin 2 → ℝ) (calls calls' : ℕ → List (Call (Fin 2) ℝ)), a ≠ b ∧ (∀ i, Merge (fun k => x k i) (fun k => x k i)) ∧
    (∀ k, used false (calls k) = a ++ firstRows k x) ∧ (∀ k, used false (calls' k) = b ++ firstRows k x) ∧
    (∀ k, ∃ m, ((new (ewaCls (Fin 2) ℝ) (⟨1 / 20, false⟩ : RParam ℝ)).run (calls k)).location = .ok m) ∧
    (∀ k, ∃ c, ((new (ewaCls (Fin 2) ℝ) (⟨1 / 20, false⟩ : RParam ℝ)).run (calls' k)).covariance = .ok c) := by
  refine ⟨[![5, 7]], [![0, 0], ![1, 2]], fun k _ => (-1) ^ k, fun k => [.partialFit (.batch ([![5, 7]] ++ firstRows k fun k _ => (-1) ^ k))],
    fun k => [.partialFit (.batch ([![0, 0], ![1, 2]] ++ firstRows k fun k _ => (-1) ^ k))], by simp, fun i => ⟨⟨1, Eventually.of_forall fun k => by simp [abs_pow]⟩, by simp⟩,
    fun k => used_batch _, fun k => used_batch _, fun k => ⟨_, run_location (ewa_lawful _ _) (⟨1 / 20, false⟩ : RParam ℝ) _ ?_⟩,
    fun k => ⟨_, run_covariance (ewa_lawful _ _) (⟨1 / 20, false⟩ : RParam ℝ) _ ?_⟩⟩
  · exact (used_batch _).trans_ne (by simp)
  · exact (used_batch _).trans_ne (by simp)

example : used false [Call.partialFit (.batch ((![1, 0] : Fin 2 → ℝ) :: List.replicate 9 0))] = ![1, 0] :: List.replicate 9 0 := used_batch _

end Precise
