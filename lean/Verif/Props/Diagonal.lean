import Verif.Lemmas.Innov
import Verif.Props.Linalg
import Verif.Props.Location
import Verif.Props.Schur

/-!
# C24: DiagonalCovariance, C33: PartialMomentsCovariance

`recencyWeight` (Spec/Recency.lean): plain average over the burn-in, exponential forgetting afterwards.
-/

set_option linter.all false

open Matrix

namespace Precise

open Spec Obj

/-- `m t` is the location EwaCovariance(r) reports before row `t` of the stream `ys` (0 before the first row). -/
def EwaPath {ι K : Type} [Fintype ι] [Field K] [LinearOrder K] [IsStrictOrderedRing K] [FloorRing K] (r : K) (ys : List (ι → K)) (m : ℕ → ι → K) : Prop :=
  m 0 = 0 ∧ ∀ t, 1 ≤ t → t < ys.length →
    ((new (ewaCls ι K) ⟨r, false⟩).run [.partialFit (.batch (ys.take t))]).location = .ok (m t)

section K
variable {ι K : Type} [Fintype ι] [DecidableEq ι] [Field K] [LinearOrder K] [IsStrictOrderedRing K] [FloorRing K]

theorem used_batch (xs : List (ι → K)) : used false [Call.partialFit (.batch xs)] = xs := by
  simp [used, effective, rowsSinceFit, rowsOf]

omit [DecidableEq ι] in
theorem EwaPath.eq {r : K} {ys : List (ι → K)} {m : ℕ → ι → K} (h : EwaPath r ys m) (t : ℕ) (ht : t < ys.length) :
    m t = (ewaFold r (ys.take t)).mean := by
  rcases Nat.eq_zero_or_pos t with rfl | hp
  · rw [h.1]; rfl
  · have h1 := h.2 t hp ht
    have hne : used false [Call.partialFit (.batch (ys.take t))] ≠ [] := by
      classical
      rw [used_batch]; intro h0
      have := congrArg List.length h0
      rw [List.length_take, List.length_nil] at this; omega
    have h2 := (ewa_attrs ⟨r, false⟩ [Call.partialFit (.batch (ys.take t))] hne).1
    rw [h1] at h2
    have h3 := Except.ok.inj h2
    classical
    rw [h3]
    show (ewaFold r (used false _)).mean = _
    rw [used_batch]

/-- An EWA path exists for every stream (so the theorems below are not vacuous). -/
theorem EwaPath.exists (r : K) (ys : List (ι → K)) : EwaPath r ys (fun t => (ewaFold r (ys.take t)).mean) := by
  refine ⟨rfl, fun t h1 h2 => ?_⟩
  have hne : used false [Call.partialFit (.batch (ys.take t))] ≠ [] := by
    rw [used_batch]; intro h0
    have := congrArg List.length h0
    rw [List.length_take, List.length_nil] at this; omega
  have := (ewa_attrs ⟨r, false⟩ [Call.partialFit (.batch (ys.take t))] hne).1
  rw [this]
  show Except.ok (ewaFold r (used false _)).mean = _
  rw [used_batch]

/-- the diagonal state after a stream -/
def diagFold (r : K) (xs : List (ι → K)) : DiagState ι K := xs.foldl diagUpdate (diagInit r)

theorem diagFold_snoc (r : K) (xs : List (ι → K)) (x : ι → K) : diagFold r (xs ++ [x]) = diagUpdate (diagFold r xs) x := by
  simp [diagFold]

theorem diagFold_fields (r : K) (xs : List (ι → K)) :
    (diagFold r xs).nSamples = xs.length ∧ (diagFold r xs).r = r ∧ (diagFold r xs).nBurn = ewaBurnN r ∧
    (diagFold r xs).mean = (ewaFold r xs).mean := by
  refine ⟨?_, ?_, ?_, diagFold_mean _ _ xs rfl rfl rfl rfl⟩ <;>
  induction xs using List.reverseRecOn with
  | nil => rfl
  | append_singleton xs x ih =>
    rw [diagFold_snoc]; unfold diagUpdate; simp only []; split <;> simp [ih]

theorem diagFold_burn (r : K) (xs : List (ι → K)) (x : ι → K) (i : ι) (h : xs.length + 1 ≤ ewaBurnN r) :
    (diagFold r (xs ++ [x])).var i = (diagFold r xs).var i + ((x i - (ewaFold r xs).mean i) ^ 2 - (diagFold r xs).var i) / ((xs.length + 1 : ℕ) : K) := by
  obtain ⟨a, b, c, d⟩ := diagFold_fields r xs
  rw [diagFold_snoc]; unfold diagUpdate; simp only [a, b, c, d, if_pos h]; ring

theorem diagFold_post (r : K) (xs : List (ι → K)) (x : ι → K) (i : ι) (h : ewaBurnN r ≤ xs.length) :
    (diagFold r (xs ++ [x])).var i = (1 - r) * (diagFold r xs).var i + r * (x i - (ewaFold r xs).mean i) ^ 2 := by
  obtain ⟨a, b, c, d⟩ := diagFold_fields r xs
  rw [diagFold_snoc]; unfold diagUpdate; simp only [a, b, c, d, if_neg (show ¬ xs.length + 1 ≤ ewaBurnN r by omega)]; ring

theorem diagFold_closed (r : K) (xs : List (ι → K)) (hx : xs ≠ []) (i : ι) :
    (diagFold r xs).var i = ∑ t ∈ Finset.range xs.length, recencyWeight r (ewaBurnN r) xs.length t *
      (xs.getD t 0 i - (ewaFold r (xs.take t)).mean i) ^ 2 :=
  closed_of_step r (ewaBurnN r) (by have := ewaBurnN_ge r; omega) (fun xs => (diagFold r xs).var i)
    (fun xs x => (x i - (ewaFold r xs).mean i) ^ 2) (fun xs x h => diagFold_burn r xs x i h) (fun xs x h => diagFold_post r xs x i h) xs hx 0

theorem toSymmetric_diagonal (d : ι → K) : toSymmetric (diagonal d) = diagonal d := toSymmetric_of_symm (symm_diagonal d)

theorem diagonal_attrs (p : RParam K) (calls : List (Call ι K)) (c : Matrix ι ι K)
    (h : ((new (diagonalCls ι K) p).run calls).covariance = .ok c) :
    used p.diff calls ≠ [] ∧ c = diagonal (diagFold p.r (used p.diff calls)).var := by
  obtain ⟨h1, h2⟩ := run_covariance_inv (diagonal_lawful ι K) p calls c h
  refine ⟨h1, h2.trans (toSymmetric_diagonal _)⟩

/-- C24: every off-diagonal entry is zero. -/
theorem C24_off_diagonal (p : RParam K) (calls : List (Call ι K)) (c : Matrix ι ι K)
    (h : ((new (diagonalCls ι K) p).run calls).covariance = .ok c) (i j : ι) (hij : i ≠ j) : c i j = 0 := by
  rw [(diagonal_attrs p calls c h).2, diagonal_apply_ne _ hij]

/-- C24: each variance is the recency-weighted mean of the squared one-step-ahead innovations `y_t - m_t`, `m_t` the
EWA location before row `t` — for the first row the innovation is the row itself. -/
theorem C24_closed_form (p : RParam K) (calls : List (Call ι K)) (c : Matrix ι ι K)
    (h : ((new (diagonalCls ι K) p).run calls).covariance = .ok c) (m : ℕ → ι → K) (hm : EwaPath p.r (used p.diff calls) m) (i : ι) :
    c i i = ∑ t ∈ Finset.range (used p.diff calls).length,
      recencyWeight p.r (ewaBurnN p.r) (used p.diff calls).length t * ((used p.diff calls).getD t 0 i - m t i) ^ 2 := by
  obtain ⟨h1, h2⟩ := diagonal_attrs p calls c h
  rw [h2, diagonal_apply_eq, diagFold_closed _ _ h1]
  refine Finset.sum_congr rfl fun t ht => ?_
  rw [hm.eq t (Finset.mem_range.1 ht)]

/-- C24: positive semi-definite, entries non-negative. -/
theorem C24_psd (p : RParam K) (h0 : 0 ≤ p.r) (h1 : p.r ≤ 1) (calls : List (Call ι K)) (c : Matrix ι ι K)
    (h : ((new (diagonalCls ι K) p).run calls).covariance = .ok c) : PSD c ∧ ∀ i j, 0 ≤ c i j := by
  obtain ⟨hne, hc⟩ := diagonal_attrs p calls c h
  have hd : ∀ i, 0 ≤ (diagFold p.r (used p.diff calls)).var i := by
    intro i
    rw [diagFold_closed _ _ hne]
    exact Finset.sum_nonneg fun t _ => mul_nonneg (recencyWeight_nonneg h0 h1 _ _ _) (sq_nonneg _)
  rw [hc]
  refine ⟨psd_diagonal hd, fun i j => ?_⟩
  rw [diagonal_apply]; split
  · exact hd i
  · exact le_rfl

/-- C24: each variance is at least the variance EwaCovariance reports for the same calls. -/
theorem C24_ge_ewa (p : RParam K) (h0 : 0 ≤ p.r) (h1 : p.r ≤ 1) (calls : List (Call ι K)) (c e : Matrix ι ι K)
    (h : ((new (diagonalCls ι K) p).run calls).covariance = .ok c)
    (he : ((new (ewaCls ι K) p).run calls).covariance = .ok e) (i : ι) : e i i ≤ c i i := by
  obtain ⟨hne, hc⟩ := diagonal_attrs p calls c h
  obtain ⟨_, he⟩ := ewa_attrs_inv p calls e he
  rw [hc, he, diagonal_apply_eq, ← quad_single (ewaFold p.r (used p.diff calls)).cov i]
  refine ewa_le_scatter p.r h0 h1 (Pi.single i 1) (fun xs => (diagFold p.r xs).var i) rfl ?_ ?_ _
  · intro xs x hx; rw [diagFold_burn p.r xs x i hx]; simp [single_dotProduct]
  · intro xs x hx; rw [diagFold_post p.r xs x i hx]; simp [single_dotProduct]

theorem diagFold_const (r : K) (x : ι → K) (n : ℕ) (hn : n + 1 ≤ ewaBurnN r) (i : ι) :
    (diagFold r (List.replicate (n + 1) x)).var i = x i ^ 2 / ((n + 1 : ℕ) : K) ∧ (ewaFold r (List.replicate (n + 1) x)).mean i = x i := by
  induction n with
  | zero =>
    constructor
    · have := diagFold_burn r [] x i (by simpa using hn)
      simp only [List.nil_append] at this
      rw [List.replicate_succ, List.replicate_zero, this]; simp [diagFold, diagInit, ewaFold, ewaInit, empInit]
    · have : (ewaFold r [x]).toEmpState = _ := ewaFold_burn r [x] (by simpa using hn)
      simp [List.replicate_succ, this, empFold, empUpdate, empInit]
  | succ n ih =>
    obtain ⟨i1, i2⟩ := ih (by omega)
    have e : List.replicate (n + 1 + 1) x = List.replicate (n + 1) x ++ [x] := List.replicate_succ'
    have hne : ((n : K) + 1) ≠ 0 := by exact_mod_cast Nat.succ_ne_zero n
    have hne2 : ((n : K) + 1 + 1) ≠ 0 := by exact_mod_cast Nat.succ_ne_zero (n + 1)
    constructor
    · rw [e, diagFold_burn r _ x i (by simpa using hn), i2, i1]
      simp only [List.length_replicate]
      push_cast
      field_simp; ring
    · rw [e, ewaFold_snoc, ewaUpdate_burn (by rw [ewaFold_n, ewaFold_nBurn, List.length_replicate]; omega), empUpdate_mean]
      simp only [i2]; ring

/-- C24 (finding): a constant stream has no variation, and EwaCovariance says so, but DiagonalCovariance reports
`x²/n`: the first deviation is taken from 0, so the estimate is not translation invariant. -/
theorem C24_not_translation_invariant (r : K) (x : ι → K) (n : ℕ) (hn : n + 1 ≤ ewaBurnN r) (i : ι) :
    ∃ c e, ((new (diagonalCls ι K) (show (diagonalCls ι K).Param from ⟨r, false⟩)).run [.fit (.batch (List.replicate (n + 1) x))]).covariance = .ok c ∧
      ((new (ewaCls ι K) ⟨r, false⟩).run [.fit (.batch (List.replicate (n + 1) x))]).covariance = .ok e ∧
      c i i = x i ^ 2 / ((n + 1 : ℕ) : K) ∧ e i i = 0 := by
  have hu : used false [Call.fit (.batch (List.replicate (n + 1) x))] = List.replicate (n + 1) x := by
    simp [used, effective, rowsSinceFit]
  have hne : used false [Call.fit (.batch (List.replicate (n + 1) x))] ≠ [] := by rw [hu]; simp
  have h1 := run_covariance (diagonal_lawful ι K) ⟨r, false⟩ [Call.fit (.batch (List.replicate (n + 1) x))] hne
  have h2 := (ewa_attrs ⟨r, false⟩ [Call.fit (.batch (List.replicate (n + 1) x))] hne).2
  refine ⟨_, _, h1, h2, ?_, ?_⟩
  · have : toSymmetric ((diagonalCls ι K).toCov ⟨r, false⟩ (List.foldl ((diagonalCls ι K).updateState ⟨r, false⟩)
        ((diagonalCls ι K).initState ⟨r, false⟩) (used false [Call.fit (.batch (List.replicate (n + 1) x))]))) i i
        = toSymmetric (diagonal (diagFold r (used false [Call.fit (.batch (List.replicate (n + 1) x))])).var) i i := rfl
    refine this.trans ?_
    rw [toSymmetric_diagonal, diagonal_apply_eq, hu]
    exact (diagFold_const r x n hn i).1
  · show (ewaFold r (used false _)).cov i i = 0
    rw [hu, ewaFold_burn r _ (by simpa using hn), empFold_cov (by simp)]
    have hne : ((n : K) + 1) ≠ 0 := by exact_mod_cast Nat.succ_ne_zero n
    simp [covOf, meanOf, hne]

/-- Non-vacuous: on ℚ with `r = 1/10`, five rows equal to 10 give variance 20 while EWA gives 0. -/
example : ∃ c e, ((new (diagonalCls (Fin 1) ℚ) (show (diagonalCls (Fin 1) ℚ).Param from ⟨1/10, false⟩)).run [.fit (.batch (List.replicate (4 + 1) fun _ => 10))]).covariance = .ok c ∧
      ((new (ewaCls (Fin 1) ℚ) ⟨1/10, false⟩).run [.fit (.batch (List.replicate (4 + 1) fun _ => 10))]).covariance = .ok e ∧
      c 0 0 = 10 ^ 2 / ((4 + 1 : ℕ) : ℚ) ∧ e 0 0 = 0 :=
  C24_not_translation_invariant (1/10) (fun _ => 10) 4 (by have := ewaBurnN_ge (1/10 : ℚ); omega) 0

end K

/-! ## C33 -/

section R
variable {ι : Type} [Fintype ι] [DecidableEq ι] (L : Lapack)

theorem quadrant_sum (c : ι → ℝ) : ∑ q, outer (pmLeg (quadrantSigns q).1 c) (pmLeg (quadrantSigns q).2 c) = outer c c := by
  have h : ∀ x : ℝ, max (x * 1) 0 * 1 + max (x * -1) 0 * -1 = x := by
    intro x
    rcases le_total 0 x with hx | hx
    · rw [max_eq_left (by linarith), max_eq_right (by linarith)]; ring
    · rw [max_eq_right (by linarith), max_eq_left (by linarith)]; ring
  ext i j
  rw [Fin.sum_univ_four]
  simp only [Matrix.add_apply, outer, of_apply, pmLeg, quadrantSigns, Matrix.cons_val_zero, Matrix.cons_val_one, Matrix.cons_val]
  linear_combination (c j) * h (c i) + (max (c i * 1) 0 * 1 + max (c i * -1) 0 * -1) * h (c j)

/-- the PartialMoments state after a stream -/
noncomputable def pmFold (r : ℝ) (xs : List (ι → ℝ)) : PMState ι := xs.foldl pmUpdate (pmInit r)

theorem pmFold_snoc (r : ℝ) (xs : List (ι → ℝ)) (x : ι → ℝ) : pmFold r (xs ++ [x]) = pmUpdate (pmFold r xs) x := by
  simp [pmFold]

theorem pmFold_fields (r : ℝ) (xs : List (ι → ℝ)) :
    (pmFold r xs).nSamples = xs.length ∧ (pmFold r xs).r = r ∧ (pmFold r xs).nBurn = ewaBurnN r ∧
    (pmFold r xs).mean = (ewaFold r xs).mean := by
  refine ⟨?_, ?_, ?_, pmFold_mean _ _ xs rfl rfl rfl rfl⟩ <;>
  induction xs using List.reverseRecOn with
  | nil => rfl
  | append_singleton xs x ih => rw [pmFold_snoc]; simp [pmUpdate, ih]

/-- the sum of the four quadrants -/
noncomputable def pmSum (r : ℝ) (xs : List (ι → ℝ)) : Matrix ι ι ℝ := ∑ q, (pmFold r xs).quadrants q

theorem pmSum_burn (r : ℝ) (xs : List (ι → ℝ)) (x : ι → ℝ) (h : xs.length + 1 ≤ ewaBurnN r) :
    pmSum r (xs ++ [x]) = pmSum r xs + (1 / ((xs.length + 1 : ℕ) : ℝ)) • (outer (x - (ewaFold r xs).mean) (x - (ewaFold r xs).mean) - pmSum r xs) := by
  obtain ⟨a, b, c, d⟩ := pmFold_fields r xs
  unfold pmSum
  rw [pmFold_snoc, ← quadrant_sum]; unfold pmUpdate; simp only [a, b, c, d, if_pos h]
  rw [Finset.sum_add_distrib, ← Finset.smul_sum, Finset.sum_sub_distrib]; rfl

theorem pmSum_post (r : ℝ) (xs : List (ι → ℝ)) (x : ι → ℝ) (h : ewaBurnN r ≤ xs.length) :
    pmSum r (xs ++ [x]) = (1 - r) • pmSum r xs + r • outer (x - (ewaFold r xs).mean) (x - (ewaFold r xs).mean) := by
  obtain ⟨a, b, c, d⟩ := pmFold_fields r xs
  unfold pmSum
  rw [pmFold_snoc, ← quadrant_sum]; unfold pmUpdate
  simp only [a, b, c, d, if_neg (show ¬ xs.length + 1 ≤ ewaBurnN r by omega)]
  rw [Finset.sum_add_distrib, ← Finset.smul_sum, ← Finset.smul_sum]; rfl

theorem pmSum_nil (r : ℝ) : pmSum r ([] : List (ι → ℝ)) = 0 := by simp [pmSum, pmFold, pmInit]

theorem pmSum_closed (r : ℝ) (xs : List (ι → ℝ)) (hx : xs ≠ []) (i j : ι) :
    pmSum r xs i j = ∑ t ∈ Finset.range xs.length, recencyWeight r (ewaBurnN r) xs.length t *
      ((xs.getD t 0 i - (ewaFold r (xs.take t)).mean i) * (xs.getD t 0 j - (ewaFold r (xs.take t)).mean j)) :=
  closed_of_step r (ewaBurnN r) (by have := ewaBurnN_ge r; omega) (fun xs => pmSum r xs i j)
    (fun xs x => (x i - (ewaFold r xs).mean i) * (x j - (ewaFold r xs).mean j))
    (fun xs x h => by rw [pmSum_burn r xs x h]; simp [outer]; ring)
    (fun xs x h => by rw [pmSum_post r xs x h]; simp [outer]) xs hx 0

theorem pm_attrs (p : RParam ℝ) (calls : List (Call ι ℝ)) (c : Matrix ι ι ℝ)
    (h : ((new (partialMomentsCls L ι) p).run calls).covariance = .ok c) :
    used p.diff calls ≠ [] ∧ c = nearestPosDef L (toSymmetric (pmSum p.r (used p.diff calls))) := by
  obtain ⟨h1, h2⟩ := run_covariance_inv (partialMoments_lawful L ι) p calls c h
  refine ⟨h1, h2.trans ?_⟩
  refine toSymmetric_of_symm ?_
  exact (pd_nearestPosDef L _).1

theorem symm_pmSum (r : ℝ) (xs : List (ι → ℝ)) : Symm (pmSum r xs) := by
  by_cases hx : xs = []
  · subst hx; rw [pmSum_nil]; exact symm_zero
  · intro i j
    rw [pmSum_closed r xs hx, pmSum_closed r xs hx]
    exact Finset.sum_congr rfl fun t _ => by ring

theorem ewa_le_pmSum (r : ℝ) (h0 : 0 ≤ r) (h1 : r ≤ 1) (xs : List (ι → ℝ)) (u : ι → ℝ) : quad (ewaFold r xs).cov u ≤ quad (pmSum r xs) u := by
  refine ewa_le_scatter r h0 h1 u (fun xs => quad (pmSum r xs) u) (by simp [pmSum_nil]) ?_ ?_ xs
  · intro xs x hx
    rw [pmSum_burn r xs x hx, quad_add, quad_smul, quad_sub, quad_outer, dotProduct_comm]; ring
  · intro xs x hx
    rw [pmSum_post r xs x hx, quad_add, quad_smul, quad_smul, quad_outer, dotProduct_comm]; ring

/-- C33: `covariance_` is the nearest-positive-definite repair of the plain recency-weighted scatter of the one-step-ahead
innovations: splitting the scatter into four partial-moment quadrants has no effect on the estimate. -/
theorem C33_scatter (p : RParam ℝ) (calls : List (Call ι ℝ)) (c : Matrix ι ι ℝ)
    (h : ((new (partialMomentsCls L ι) p).run calls).covariance = .ok c) (m : ℕ → ι → ℝ) (hm : EwaPath p.r (used p.diff calls) m) :
    c = nearestPosDef L (Matrix.of fun i j => ∑ t ∈ Finset.range (used p.diff calls).length,
      recencyWeight p.r (ewaBurnN p.r) (used p.diff calls).length t *
        (((used p.diff calls).getD t 0 i - m t i) * ((used p.diff calls).getD t 0 j - m t j))) := by
  obtain ⟨h1, h2⟩ := pm_attrs L p calls c h
  rw [h2, toSymmetric_of_symm (symm_pmSum _ _)]
  congr 1
  ext i j
  rw [pmSum_closed _ _ h1, of_apply]
  refine Finset.sum_congr rfl fun t ht => ?_
  rw [hm.eq t (Finset.mem_range.1 ht)]

/-- C33: `covariance_` is symmetric positive definite after any non-empty stream, for every rate. -/
theorem C33_pd (p : RParam ℝ) (calls : List (Call ι ℝ)) (c : Matrix ι ι ℝ)
    (h : ((new (partialMomentsCls L ι) p).run calls).covariance = .ok c) : PD c := by
  rw [(pm_attrs L p calls c h).2]; exact pd_nearestPosDef L _

/-- C33: whenever the EWA covariance of the same calls is positive definite, no repair happens: the variances are
exactly DiagonalCovariance's and the estimate dominates the EWA covariance in every direction. -/
theorem C33_no_repair (p : RParam ℝ) (h0 : 0 ≤ p.r) (h1 : p.r ≤ 1) (calls : List (Call ι ℝ)) (c e d : Matrix ι ι ℝ)
    (h : ((new (partialMomentsCls L ι) p).run calls).covariance = .ok c)
    (he : ((new (ewaCls ι ℝ) p).run calls).covariance = .ok e) (hpd : PD e)
    (hd : ((new (diagonalCls ι ℝ) p).run calls).covariance = .ok d) :
    (∀ i, c i i = d i i) ∧ Loewner e c := by
  obtain ⟨hne, hc⟩ := pm_attrs L p calls c h
  obtain ⟨_, he⟩ := ewa_attrs_inv p calls e he
  obtain ⟨_, hd⟩ := diagonal_attrs p calls d hd
  have hle := ewa_le_pmSum p.r h0 h1 (used p.diff calls)
  have hp : PD (pmSum p.r (used p.diff calls)) :=
    ⟨symm_pmSum _ _, fun x hx => lt_of_lt_of_le (by have := hpd.2 x hx; rwa [he] at this) (hle x)⟩
  have hs := toSymmetric_of_symm (symm_pmSum p.r (used p.diff calls))
  have hc' : c = pmSum p.r (used p.diff calls) := by
    rw [hc, nearestPosDef_id L (by rw [hs, hs]; exact hp), hs, hs]
  constructor
  · intro i
    rw [hc', hd, diagonal_apply_eq, pmSum_closed _ _ hne, diagFold_closed _ _ hne]
    exact Finset.sum_congr rfl fun t _ => by ring
  · intro x; rw [hc', he]; exact hle x

omit [DecidableEq ι] in
theorem run_cov_ok {C : Cls ι ℝ} (hC : Lawful C) (p : C.Param) (calls : List (Call ι ℝ)) (h : used (C.diff p) calls ≠ []) :
    ∃ c, ((new C p).run calls).covariance = .ok c := ⟨_, run_covariance hC p calls h⟩

/-- Non-vacuous: a stream on which the hypotheses of C33_no_repair hold, for every numpy backend. -/
example : ∃ c d : Matrix (Fin 2) (Fin 2) ℝ, ((new (partialMomentsCls L (Fin 2)) (⟨1/20, false⟩ : RParam ℝ)).run [.partialFit (.batch demoRows)]).covariance = .ok c ∧
    (∀ i, c i i = d i i) ∧ Loewner !![2, 1; 1, 1] c := by
  have hne : used false [Call.partialFit (.batch demoRows)] ≠ [] := by rw [demo_used]; simp [demoRows]
  obtain ⟨c, hc⟩ := run_cov_ok (partialMoments_lawful L (Fin 2)) (⟨1/20, false⟩ : RParam ℝ) _ hne
  obtain ⟨d, hd⟩ := run_cov_ok (diagonal_lawful (Fin 2) ℝ) (⟨1/20, false⟩ : RParam ℝ) _ hne
  exact ⟨c, d, hc, C33_no_repair L ⟨1/20, false⟩ (by norm_num) (by norm_num) _ c _ d hc (demo_attrs (1/20) (by norm_num))
    (Spec.MinEigGE.pd (by intro i j; fin_cases i <;> fin_cases j <;> rfl) (by norm_num) demo_minEig) hd⟩
example : ∃ c, ((new (diagonalCls (Fin 2) ℝ) (⟨1/20, false⟩ : RParam ℝ)).run [.partialFit (.batch demoRows)]).covariance = .ok c ∧
    1 ≤ c 1 1 := by
  have hne : used false [Call.partialFit (.batch demoRows)] ≠ [] := by rw [demo_used]; simp [demoRows]
  obtain ⟨d, hd⟩ := run_cov_ok (diagonal_lawful (Fin 2) ℝ) (⟨1/20, false⟩ : RParam ℝ) _ hne
  exact ⟨d, hd, C24_ge_ewa ⟨1/20, false⟩ (by norm_num) (by norm_num) _ d _ hd (demo_attrs (1/20) (by norm_num)) 1⟩

end R

end Precise
