import Verif.Model.PowerTables
import Verif.Props.PowerRun
import Verif.Props.TheoryBlocks
import Verif.Props.PowerOther

/-!
# C101: the other power tables of `research/metric_power.py`
-/

set_option linter.all false

open Matrix

namespace Precise.Power
open Precise Spec

variable {ι : Type} [Fintype ι] [DecidableEq ι] {p : ℕ} (L : Lapack)

/-- The fraction of the trials with a property (specification). -/
noncomputable def fraction {τ : Type} (P : τ → Prop) (trials : List τ) : ℝ :=
  open Classical in ((trials.filter fun t => P t).length : ℝ) / (trials.length : ℝ)

theorem fraction_range {τ : Type} (P : τ → Prop) (trials : List τ) : 0 ≤ fraction P trials ∧ fraction P trials ≤ 1 := by
  unfold fraction
  refine ⟨by positivity, div_le_one_of_le₀ ?_ (by positivity)⟩
  exact_mod_cast List.length_filter_le _ _

/-! ### Counting -/

theorem bump_fold {κ : Type} [DecidableEq κ] (l : List (κ × Bool)) (c : κ → ℕ) (m : κ) :
    l.foldl bump c m = c m + l.count (m, true) := by
  induction l generalizing c with
  | nil => simp
  | cons v l ih =>
    rw [List.foldl_cons, ih, List.count_cons]
    unfold bump
    obtain ⟨k, b⟩ := v
    by_cases hk : m = k
    · subst hk; cases b <;> simp; omega
    · have : ¬ ((k, b) == (m, true)) = true := by
        simp only [beq_iff_eq, Prod.mk.injEq, not_and]; intro h; exact absurd h.symm hk
      simp [Function.update_of_ne hk, this]

theorem table_fold {κ τ : Type} [DecidableEq κ] (judge : τ → Except PyErr (List (κ × Bool))) (vs : τ → List (κ × Bool))
    (trials : List τ) (h : ∀ t ∈ trials, judge t = .ok (vs t)) (c : κ → ℕ) :
    trials.foldlM (fun c t => do return (← judge t).foldl bump c) c = (.ok (fun m => c m + (trials.map fun t => (vs t).count (m, true)).sum) :
      Except PyErr (κ → ℕ)) := by
  induction trials generalizing c with
  | nil => simp [pure, Except.pure]
  | cons t ts ih =>
    rw [List.foldlM_cons, h t (by simp)]
    simp only [bind, Except.bind, pure, Except.pure] at ih ⊢
    rw [ih (fun u hu => h u (by simp [hu]))]
    congr 1
    funext m
    rw [bump_fold]
    simp [add_assoc]

/-- C101: an entry of a power table is the number of correct verdicts under its name divided by the number of trials; no trials is a
division by zero; and the first trial that raises makes the whole table raise. -/
theorem C101_table {κ τ : Type} [DecidableEq κ] (names : List κ) (judge : τ → Except PyErr (List (κ × Bool))) :
    (∀ (vs : τ → List (κ × Bool)) (trials : List τ), trials ≠ [] → (∀ t ∈ trials, judge t = .ok (vs t)) →
      table names judge trials =
        .ok (names.map fun m => (m, (((trials.map fun t => (vs t).count (m, true)).sum : ℕ) : ℝ) / (trials.length : ℝ)))) ∧
    (names ≠ [] → table names judge [] = .error .zeroDivision) ∧
    (∀ (vs : τ → List (κ × Bool)) (pre post : List τ) (t : τ) (e : PyErr), (∀ t ∈ pre, judge t = .ok (vs t)) → judge t = .error e →
      table names judge (pre ++ t :: post) = .error e) := by
  refine ⟨fun vs trials hne h => ?_, fun hn => ?_, fun vs pre post t e h he => ?_⟩
  · unfold table
    rw [table_fold judge vs trials h]
    simp only [bind, Except.bind, pure, Except.pure]
    rw [if_neg (by simp [hne])]
    congr 1
    refine List.map_congr_left fun m _ => ?_
    simp only [zero_add]
  · unfold table
    simp [bind, Except.bind, pure, Except.pure, hn]
  · unfold table
    rw [List.foldlM_append, table_fold judge vs pre h]
    simp only [bind, Except.bind, List.foldlM_cons, he]

theorem count_map_inj {κ α : Type} [DecidableEq κ] [DecidableEq α] (f : α → κ) (hf : Function.Injective f) (d : α → Bool) (l : List α) (a : α) :
    (l.map fun k => (f k, d k)).count (f a, true) = l.count a * (d a).toNat := by
  induction l with
  | nil => simp
  | cons b l ih =>
    rw [List.map_cons, List.count_cons, ih, List.count_cons]
    by_cases h : b = a
    · subst h; cases hd : d b <;> simp
    · have : ¬ (((f b, d b) == (f a, true)) = true) := by
        simp only [beq_iff_eq, Prod.mk.injEq, not_and]; intro h'; exact absurd (hf h') h
      simp [this, h]

theorem count_map_not {κ α : Type} [DecidableEq κ] (f : α → κ) (d : α → Bool) (l : List α) (m : κ) (hm : ∀ a, f a ≠ m) :
    (l.map fun k => (f k, d k)).count (m, true) = 0 := by
  rw [List.count_eq_zero]
  intro h
  obtain ⟨a, _, e⟩ := List.mem_map.1 h
  exact hm a (Prod.ext_iff.1 e).1

theorem mapM_ok' {α β : Type} (f : α → Except PyErr β) (v : α → β) (l : List α) (h : ∀ a ∈ l, f a = .ok (v a)) :
    l.mapM f = .ok (l.map v) := by
  induction l with
  | nil => rfl
  | cons a l ih =>
    rw [List.mapM_cons, h a (by simp), ih fun b hb => h b (by simp [hb])]
    rfl

theorem sum_toNat {τ : Type} (P : τ → Prop) (trials : List τ) (q : ℕ) :
    (((trials.map fun t => q * (open Classical in decide (P t)).toNat).sum : ℕ) : ℝ) / (trials.length : ℝ) = q * fraction P trials := by
  unfold fraction
  rw [mul_div_assoc']
  congr 1
  induction trials with
  | nil => simp
  | cons t ts ih =>
    rw [List.map_cons, List.sum_cons, Nat.cast_add, ih, List.filter_cons]
    by_cases h : P t <;> simp [h]; ring

/-! ### Generators -/

theorem min_spdFactor {k : ℕ} (B : Matrix ι (Fin k) ℝ) (u : ι → ℝ) (lo : ℝ) (h : ∀ i, lo ≤ u i) :
    Symm (spdFactor B u) ∧ MinEigGE (spdFactor B u) lo := by
  unfold spdFactor
  refine ⟨?_, fun x => ?_⟩
  · intro i j
    simp only [Matrix.add_apply, mul_apply, transpose_apply, diagonal_apply]
    congr 1
    · exact Finset.sum_congr rfl fun l _ => mul_comm _ _
    · by_cases hij : i = j
      · subst hij; rfl
      · rw [if_neg hij, if_neg (Ne.symm hij)]
  · rw [quad_add, quad_diagonal]
    have e : quad (B * Bᵀ) x = normSq (Bᵀ *ᵥ x) := by
      have := quad_congr B (1 : Matrix (Fin k) (Fin k) ℝ) x
      rw [Matrix.mul_one] at this
      rw [this, quad_one]
    rw [e]
    have : lo * normSq x ≤ ∑ i, u i * (x i * x i) := by
      unfold normSq
      rw [Finset.mul_sum]
      exact Finset.sum_le_sum fun i _ => mul_le_mul_of_nonneg_right (h i) (mul_self_nonneg _)
    linarith [normSq_nonneg (Bᵀ *ᵥ x)]

/-- C101: the truths of `_spd_factor` are symmetric with all eigenvalues at least the smallest uniform drawn (0.3): positive definite,
whatever the normals and the number of factors. -/
theorem C101_truth {k : ℕ} (B : Matrix ι (Fin k) ℝ) (u : ι → ℝ) (h : ∀ i, 3 / 10 ≤ u i) :
    MinEigGE (spdFactor B u) (3 / 10) ∧ PD (spdFactor B u) :=
  ⟨(min_spdFactor B u _ h).2, (min_spdFactor B u _ h).2.pd (min_spdFactor B u _ h).1 (by norm_num)⟩

theorem frobNorm_sq (a : Matrix ι ι ℝ) : frobNorm a ^ 2 = ∑ i, ∑ j, a i j * a i j :=
  Real.sq_sqrt (Finset.sum_nonneg fun i _ => Finset.sum_nonneg fun j _ => mul_self_nonneg _)

theorem frob_cs (a b : Matrix ι ι ℝ) : |∑ i, ∑ j, a i j * b i j| ≤ frobNorm a * frobNorm b := by
  have h := Finset.sum_mul_sq_le_sq_mul_sq (Finset.univ : Finset (ι × ι)) (fun q => a q.1 q.2) (fun q => b q.1 q.2)
  simp only [Fintype.sum_prod_type] at h
  have h2 : (∑ i, ∑ j, a i j * b i j) ^ 2 ≤ (frobNorm a * frobNorm b) ^ 2 := by
    rw [mul_pow, frobNorm_sq, frobNorm_sq]
    simpa only [sq] using h
  have h0 : 0 ≤ frobNorm a * frobNorm b := mul_nonneg (Real.sqrt_nonneg _) (Real.sqrt_nonneg _)
  exact abs_le_of_sq_le_sq h2 h0

theorem frobNorm_pos {a : Matrix ι ι ℝ} (h : a ≠ 0) : 0 < frobNorm a := by
  refine lt_of_le_of_ne (Real.sqrt_nonneg _) fun h0 => h ?_
  have h1 : ∑ i, ∑ j, a i j * a i j = 0 := by rw [← frobNorm_sq, ← h0]; norm_num
  ext i j
  have h2 := (Finset.sum_eq_zero_iff_of_nonneg (f := fun i => ∑ j, a i j * a i j)
    fun i _ => Finset.sum_nonneg fun j _ => mul_self_nonneg (a i j)).1 h1 i (Finset.mem_univ i)
  have h3 := (Finset.sum_eq_zero_iff_of_nonneg (f := fun j => a i j * a i j) fun j _ => mul_self_nonneg (a i j)).1 h2 j (Finset.mem_univ j)
  exact mul_self_eq_zero.1 h3

/-- A matrix within relative Frobenius distance less than 1 of a positive definite one has a positive top eigenvalue. -/
theorem top_pos_of_near {cov m : Matrix ι ι ℝ} (hc : PD cov) [Nonempty ι] (hm : frobNorm (m - cov) < frobNorm cov) :
    ∃ c, TopEig m c ∧ 0 < c := by
  obtain ⟨c, hc'⟩ := topEig_exists m
  refine ⟨c, hc', ?_⟩
  by_contra hneg
  push Not at hneg
  have hs := symm_toSymmetric m
  have hD : PSD (-(toSymmetric m)) := ⟨fun i j => by rw [Matrix.neg_apply, Matrix.neg_apply, hs i j], fun x => by
    rw [quad_neg, quad_toSymmetric]
    have := hc'.1 x
    have := mul_nonpos_of_nonpos_of_nonneg hneg (normSq_nonneg x)
    linarith⟩
  have h0 := (Theory.trace_psd_nonneg hc hD).1
  rw [Matrix.mul_neg, trace_neg] at h0
  have e : (cov * toSymmetric m).trace = ∑ i, ∑ j, cov i j * m i j := by
    rw [toSymmetric_eq]
    simp only [trace, diag_apply, mul_apply, Matrix.smul_apply, Matrix.add_apply, transpose_apply, smul_eq_mul]
    have h1 : ∀ i j, cov i j * ((1 / 2) * (m j i + m i j)) = (1/2) * (cov j i * m j i) + (1 / 2) * (cov i j * m i j) := fun i j => by
      rw [hc.1 i j]; ring
    have h2 : ∑ i, ∑ j, cov j i * m j i = ∑ i, ∑ j, cov i j * m i j := Finset.sum_comm
    first
    | simp only [h1, Finset.sum_add_distrib, ← Finset.mul_sum, h2]; ring
    | skip
  have e2 : ∑ i, ∑ j, cov i j * m i j = frobNorm cov ^ 2 + ∑ i, ∑ j, cov i j * (m - cov) i j := by
    rw [frobNorm_sq, ← Finset.sum_add_distrib]
    refine Finset.sum_congr rfl fun i _ => ?_
    rw [← Finset.sum_add_distrib]
    refine Finset.sum_congr rfl fun j _ => ?_
    rw [Matrix.sub_apply]; ring
  have h3 := abs_le.1 (frob_cs cov (m - cov))
  have hcz : 0 < frobNorm cov := lt_of_le_of_lt (Real.sqrt_nonneg _) hm
  nlinarith [h3.1]

theorem perturb_near (cov : Matrix ι ι ℝ) (eps : ℝ) (a : Matrix ι ι ℝ) (ha : toSymmetric a ≠ 0) :
    frobNorm ((cov + eps • ((frobNorm cov / frobNorm (toSymmetric a)) • toSymmetric a)) - cov) = |eps| * frobNorm cov := by
  have hp := frobNorm_pos ha
  have hsm : ∀ (k : ℝ) (b : Matrix ι ι ℝ), frobNorm (k • b) = |k| * frobNorm b := fun k b => by
    unfold frobNorm
    have : ∑ i, ∑ j, (k • b) i j * (k • b) i j = k ^ 2 * ∑ i, ∑ j, b i j * b i j := by
      simp only [Finset.mul_sum, Matrix.smul_apply, smul_eq_mul]
      exact Finset.sum_congr rfl fun i _ => Finset.sum_congr rfl fun j _ => by ring
    rw [this, Real.sqrt_mul (sq_nonneg k), Real.sqrt_sq_eq_abs]
  rw [add_sub_cancel_left, hsm, hsm, abs_of_nonneg (div_nonneg (show 0 ≤ frobNorm cov from Real.sqrt_nonneg _) hp.le), div_mul_cancel₀ _ hp.ne']

/-- C101: the estimates of `_perturb` (noise level below 1, noise not identically zero): positive definite with condition number at most
1000, whatever the noise. -/
theorem C101_estimate [Nonempty ι] {cov : Matrix ι ι ℝ} (hc : PD cov) (eps : ℝ) (he : |eps| < 1) (a : Matrix ι ι ℝ) (ha : toSymmetric a ≠ 0) :
    PD (perturb L cov eps a) ∧ ∃ m, 0 < m ∧ MinEigGE (perturb L cov eps a) (m / 1000) ∧ MaxEigLE (perturb L cov eps a) m := by
  have hcz : 0 < frobNorm cov := frobNorm_pos fun h => by
    subst h
    have := hc.2 1 one_ne_zero
    simp [quad] at this
  obtain ⟨c, h1, h2⟩ := top_pos_of_near hc (m := cov + eps • ((frobNorm cov / frobNorm (toSymmetric a)) • toSymmetric a)) (by
    rw [perturb_near cov eps a ha]; nlinarith)
  obtain ⟨g1, g2, g3⟩ := C79_conditioned L h1 h2 (1 / 1000) (by norm_num) (by norm_num)
  refine ⟨g1, c, h2, ?_, g3.1⟩
  intro x
  have := g2 x
  rw [show c / 1000 = 1 / 1000 * c by ring]
  exact this

/-! ### `proof_high_dim` -/

variable {bulk tail : ℕ}

/-- The draws of a trial are what NumPy's contracts promise: an orthonormal `Q`, at least one test row, at least one subspace for each
dimension, each with orthonormal rows. -/
def TailTrial.Ok (t : TailTrial bulk tail) : Prop :=
  t.Qᵀ * t.Q = 1 ∧ t.X ≠ [] ∧ ∀ k, 1 ≤ k → t.subs k ≠ [] ∧ ∀ W ∈ t.subs k, W * Wᵀ = 1

/-- C101: the two estimates of a tail trial are `Q diag(λ) Qᵀ` for the trial's orthonormal `Q`, with the drawn bulk eigenvalues (relative
noise, floored at 0.05) and tail eigenvalues (log-normal noise, floored at 1e-4); they are positive definite; and the first one returned
is the one whose bulk eigenvalues are nearer the truth (the first drawn, on a tie). -/
theorem C101_tail_pair (s : TailSetup bulk) (t : TailTrial bulk tail) (hQ : t.Qᵀ * t.Q = 1) :
    ∃ lg lb : Fin (bulk + tail) → ℝ,
      (t.pair s).1 = t.Q * diagonal lg * t.Qᵀ ∧ (t.pair s).2 = t.Q * diagonal lb * t.Qᵀ ∧
      PD (t.pair s).1 ∧ PD (t.pair s).2 ∧
      (∑ i, (lg (Fin.castAdd tail i) - s.lamBulk i) ^ 2 ≤ ∑ i, (lb (Fin.castAdd tail i) - s.lamBulk i) ^ 2) ∧
      (((∀ i, lg (Fin.castAdd tail i) = max (s.lamBulk i * (1 + s.sigGood * t.zGood i)) (5 / 100)) ∧
        (∀ j, lg (Fin.natAdd bulk j) = max (s.tailLevel * Real.exp (s.sigTail * t.uGood j)) (1 / 10 ^ 4)) ∧
        (∀ i, lb (Fin.castAdd tail i) = max (s.lamBulk i * (1 + s.sigBad * t.zBad i)) (5 / 100)) ∧
        (∀ j, lb (Fin.natAdd bulk j) = max (s.tailLevel * Real.exp (s.sigTail * t.uBad j)) (1 / 10 ^ 4))) ∨
       ((∀ i, lb (Fin.castAdd tail i) = max (s.lamBulk i * (1 + s.sigGood * t.zGood i)) (5 / 100)) ∧
        (∀ j, lb (Fin.natAdd bulk j) = max (s.tailLevel * Real.exp (s.sigTail * t.uGood j)) (1 / 10 ^ 4)) ∧
        (∀ i, lg (Fin.castAdd tail i) = max (s.lamBulk i * (1 + s.sigBad * t.zBad i)) (5 / 100)) ∧
        (∀ j, lg (Fin.natAdd bulk j) = max (s.tailLevel * Real.exp (s.sigTail * t.uBad j)) (1 / 10 ^ 4)) ∧
        (∑ i, (lg (Fin.castAdd tail i) - s.lamBulk i) ^ 2 < ∑ i, (lb (Fin.castAdd tail i) - s.lamBulk i) ^ 2))) := by
  have hpos : ∀ (b : Fin bulk → ℝ) (v : Fin tail → ℝ) (i : Fin (bulk + tail)),
      0 < Fin.append (fun i => max (b i) (5 / 100)) (fun j => max (v j) (1 / 10 ^ 4)) i := fun b v i => by
    refine Fin.addCases (fun i => ?_) (fun j => ?_) i
    · rw [Fin.append_left]; exact lt_of_lt_of_le (by norm_num) (le_max_right _ _)
    · rw [Fin.append_right]; exact lt_of_lt_of_le (by norm_num) (le_max_right _ _)
  have hle : ∀ x y : ℝ, 0 ≤ x → 0 ≤ y → (Real.sqrt x ≤ Real.sqrt y ↔ x ≤ y) := fun x y _ hy => Real.sqrt_le_sqrt_iff hy
  unfold TailTrial.pair tailEstimate
  simp only []
  split
  · rename_i h
    rw [hle _ _ (Finset.sum_nonneg fun i _ => sq_nonneg _) (Finset.sum_nonneg fun i _ => sq_nonneg _)] at h
    refine ⟨_, _, eigRecompose_eq _ _, eigRecompose_eq _ _, ?_, ?_, ?_, Or.inl ⟨fun i => ?_, fun j => ?_, fun i => ?_, fun j => ?_⟩⟩
    · show PD (eigRecompose _ _)
      rw [eigRecompose_eq]; exact pd_spec hQ (hpos _ _)
    · show PD (eigRecompose _ _)
      rw [eigRecompose_eq]; exact pd_spec hQ (hpos _ _)
    · simpa only [Fin.append_left] using h
    all_goals simp only [Fin.append_left, Fin.append_right]
  · rename_i h
    rw [hle _ _ (Finset.sum_nonneg fun i _ => sq_nonneg _) (Finset.sum_nonneg fun i _ => sq_nonneg _), not_le] at h
    refine ⟨_, _, eigRecompose_eq _ _, eigRecompose_eq _ _, ?_, ?_, ?_, Or.inr ⟨fun i => ?_, fun j => ?_, fun i => ?_, fun j => ?_, ?_⟩⟩
    · show PD (eigRecompose _ _)
      rw [eigRecompose_eq]; exact pd_spec hQ (hpos _ _)
    · show PD (eigRecompose _ _)
      rw [eigRecompose_eq]; exact pd_spec hQ (hpos _ _)
    · simpa only [Fin.append_left] using h.le
    · simp only [Fin.append_left]
    · simp only [Fin.append_right]
    · simp only [Fin.append_left]
    · simp only [Fin.append_right]
    · simpa only [Fin.append_left] using h

/-- The number in a successful result. -/
noncomputable def val : Except PyErr ℝ → ℝ
  | .ok v => v
  | .error _ => 0

theorem verdict_ok {κ α : Type} [LT α] (name : κ) (g b : α) :
    verdict name (.ok g) (.ok b) = .ok (name, open Classical in decide (b < g)) := rfl

theorem loglik_lt {c d : Matrix ι ι ℝ} (hc : PD c) (hd : PD d) (X : List (ι → ℝ)) (hX : X ≠ []) :
    loglik c X = .ok (val (loglik c X)) ∧ loglik d X = .ok (val (loglik d X)) ∧
    (val (loglik d X) < val (loglik c X) ↔ meanLogLik 0 d X < meanLogLik 0 c X) := by
  rw [loglik_pd hc X hX, loglik_pd hd X hX, meanLogLik_zero_eq hc X hX, meanLogLik_zero_eq hd X hX]
  refine ⟨rfl, rfl, ?_⟩
  unfold val
  constructor <;> intro h <;> linarith

theorem kproj_val {κ : Type} [Fintype κ] [DecidableEq κ] {c : Matrix ι ι ℝ} (hc : PD c) (X : List (ι → ℝ)) (hX : X ≠ [])
    (subs : List (Matrix κ ι ℝ)) (h : ∀ W ∈ subs, W * Wᵀ = 1) : kprojLoglik c X subs = .ok (val (kprojLoglik c X subs)) := by
  rw [kproj_ok c X (fun W => val (kprojTerm c X W)) subs]
  · rfl
  · intro W hW
    unfold kprojTerm
    rw [loglik_pd (pd_project hc (h W hW)) _ (by simpa using hX)]; rfl

theorem kproj_wide {c : Matrix (Fin p) (Fin p) ℝ} (hc : PD c) (X : List (Fin p → ℝ)) (hX : X ≠ []) (k : ℕ) (hk : p ≤ k)
    (subs : List (Matrix (Fin (subDim p k)) (Fin p) ℝ)) (hs : subs ≠ []) (h : ∀ W ∈ subs, W * Wᵀ = 1) :
    kprojLoglik c X subs = loglik c X :=
  C80_kproj_full hc X hX subs hs fun W hW => ⟨h W hW, (Matrix.mul_eq_one_comm_of_card_eq _ _ _ (by simp [subDim, hk])).1 (h W hW)⟩

theorem stein_ok {c : Matrix (Fin p) (Fin p) ℝ} (hc : PD c) (X : List (Fin p → ℝ)) : ∃ v, stein c X = .ok v := by
  unfold stein
  rw [if_neg hc.det_pos.ne']
  exact ⟨_, rfl⟩

theorem fraction_congr {τ : Type} {P Q : τ → Prop} {trials : List τ} (h : ∀ t ∈ trials, (P t ↔ Q t)) : fraction P trials = fraction Q trials := by
  unfold fraction
  congr 2
  exact congrArg List.length (List.filter_congr fun t ht => by simp [h t ht])

theorem proj_inj : Function.Injective JudgeName.proj := fun _ _ h => by injection h

open Classical in
/-- C101: `proof_high_dim` on any positive number of trials completes; its `loglik` entry is the fraction of trials in which the better
estimate has the higher mean Gaussian log-density, its `frobenius` entry the fraction in which it is nearer the sample covariance of the
test rows; and the entry `proj_kK` for `K ≥ p` (`None` included) is the `loglik` entry itself times the number of times `K` occurs in
`k_list`: full-dimensional projection is the full likelihood, trial by trial. -/
theorem C101_high_dim (s : TailSetup bulk) (kList : List (Option ℕ)) (hk : ∀ k ∈ kList, k ≠ some 0) (hp : 1 ≤ bulk + tail)
    (trials : List (TailTrial bulk tail)) (hne : trials ≠ []) (hok : ∀ t ∈ trials, t.Ok) :
    ∃ a : JudgeName → ℝ, proofHighDim s kList trials =
        .ok (([JudgeName.loglik, JudgeName.stein, JudgeName.frobenius] ++ kList.map fun k => JudgeName.proj (k.getD (bulk + tail))).map fun m => (m, a m)) ∧
      a .loglik = fraction (fun t => meanLogLik 0 (t.pair s).2 t.X < meanLogLik 0 (t.pair s).1 t.X) trials ∧
      a .frobenius = fraction (fun t => ∑ i, ∑ j, ((t.pair s).1 i j - covOf t.X i j) ^ 2 < ∑ i, ∑ j, ((t.pair s).2 i j - covOf t.X i j) ^ 2) trials ∧
      (0 ≤ a .stein ∧ a .stein ≤ 1) ∧
      (∀ K, bulk + tail ≤ K → a (.proj K) = ((kList.map fun k => k.getD (bulk + tail)).count K : ℝ) * a .loglik) ∧
      (∀ K, 0 ≤ a (.proj K) ∧ a (.proj K) ≤ ((kList.map fun k => k.getD (bulk + tail)).count K : ℝ)) := by
  set ks := kList.map fun k => k.getD (bulk + tail) with hks
  have hpd : ∀ t ∈ trials, PD (t.pair s).1 ∧ PD (t.pair s).2 := fun t ht => by
    obtain ⟨_, _, _, _, h1, h2, _⟩ := C101_tail_pair s t (hok t ht).1
    exact ⟨h1, h2⟩
  let steinWin : TailTrial bulk tail → Prop := fun t => ∃ g b, stein (t.pair s).1 t.X = .ok g ∧ stein (t.pair s).2 t.X = .ok b ∧ b < g
  let projWin : ℕ → TailTrial bulk tail → Prop := fun K t =>
    val (kprojLoglik (t.pair s).2 t.X (t.subs K)) < val (kprojLoglik (t.pair s).1 t.X (t.subs K))
  let llWin : TailTrial bulk tail → Prop := fun t => val (loglik (t.pair s).2 t.X) < val (loglik (t.pair s).1 t.X)
  let frWin : TailTrial bulk tail → Prop := fun t => frobenius (t.pair s).2 t.X < frobenius (t.pair s).1 t.X
  let vs : TailTrial bulk tail → List (JudgeName × Bool) := fun t =>
    (JudgeName.loglik, decide (llWin t)) :: (JudgeName.stein, decide (steinWin t)) :: (JudgeName.frobenius, decide (frWin t)) ::
      ks.map fun K => (JudgeName.proj K, decide (projWin K t))
  have hvs : ∀ t ∈ trials, highDimTrial s kList t = .ok (vs t) := fun t ht => by
    obtain ⟨h1, h2⟩ := hpd t ht
    obtain ⟨hQ, hX, hS⟩ := hok t ht
    unfold highDimTrial
    simp only []
    obtain ⟨l1, l2, _⟩ := loglik_lt h1 h2 t.X hX
    obtain ⟨g, hg⟩ := stein_ok h1 t.X
    obtain ⟨b, hb⟩ := stein_ok h2 t.X
    have e3 : verdict JudgeName.stein (stein (t.pair s).1 t.X) (stein (t.pair s).2 t.X) = .ok (JudgeName.stein, decide (steinWin t)) := by
      rw [hg, hb, verdict_ok]
      have : (b < g) ↔ steinWin t := ⟨fun h => ⟨g, b, hg, hb, h⟩, fun ⟨g', b', e, e', h⟩ => by
        rw [hg] at e; rw [hb] at e'; injection e with e; injection e' with e'; rwa [e, e']⟩
      simp only [this]
    have e4 : (kList.mapM fun k =>
        let kk := kOf (bulk + tail) k
        if kk = 0 then (.error .zeroDivision : Except PyErr (JudgeName × Bool))
        else verdict (JudgeName.proj kk) (kprojLoglik (t.pair s).1 t.X (t.subs kk)) (kprojLoglik (t.pair s).2 t.X (t.subs kk))) =
        .ok (ks.map fun K => (JudgeName.proj K, decide (projWin K t))) := by
      rw [mapM_ok' _ (fun k => (JudgeName.proj (k.getD (bulk + tail)), decide (projWin (k.getD (bulk + tail)) t))) kList, hks, List.map_map]
      · rfl
      · intro k hkm
        have hk1 : 1 ≤ k.getD (bulk + tail) := by
          cases k with
          | none => exact hp
          | some k => have := hk _ hkm; simp at this ⊢; omega
        have hs' := hS _ hk1
        show (if k.getD (bulk + tail) = 0 then _ else _) = _
        rw [if_neg (by omega)]
        exact (congrArg₂ (verdict (JudgeName.proj (k.getD (bulk + tail)))) (kproj_val h1 t.X hX _ hs'.2) (kproj_val h2 t.X hX _ hs'.2)).trans rfl
    rw [l1, l2, verdict_ok, e3, verdict_ok, e4]
    rfl
  have htab := (C101_table ([.loglik, .stein, .frobenius] ++ kList.map fun k => .proj (kOf (bulk + tail) k)) (highDimTrial s kList)).1
    vs trials hne hvs
  refine ⟨_, htab, ?_, ?_, ?_, fun K hK => ?_, fun K => ?_⟩
  · have : ∀ t, (vs t).count (JudgeName.loglik, true) = 1 * (decide (llWin t)).toNat := fun t => by
      simp only [vs, List.count_cons]
      rw [count_map_not _ _ _ _ (by intro a; simp)]
      by_cases h : llWin t <;> simp [h]
    simp only [this]
    rw [sum_toNat, Nat.cast_one, one_mul]
    exact fraction_congr fun t ht => (loglik_lt (hpd t ht).1 (hpd t ht).2 t.X (hok t ht).2.1).2.2
  · have : ∀ t, (vs t).count (JudgeName.frobenius, true) = 1 * (decide (frWin t)).toNat := fun t => by
      simp only [vs, List.count_cons]
      rw [count_map_not _ _ _ _ (by intro a; simp)]
      by_cases h : frWin t <;> simp [h]
    simp only [this]
    rw [sum_toNat, Nat.cast_one, one_mul]
    refine fraction_congr fun t ht => ?_
    have := (C80_frobenius (t.pair s).1 t.X).2.2 (t.pair s).2
    show _ < _ ↔ _
    rw [← not_le, ← not_le, this]
  · have : ∀ t, (vs t).count (JudgeName.stein, true) = 1 * (decide (steinWin t)).toNat := fun t => by
      simp only [vs, List.count_cons]
      rw [count_map_not _ _ _ _ (by intro a; simp)]
      by_cases h : steinWin t <;> simp [h]
    simp only [this]
    rw [sum_toNat, Nat.cast_one, one_mul]
    exact fraction_range _ _
  · have h1 : ∀ t, (vs t).count (JudgeName.proj K, true) = ks.count K * (decide (projWin K t)).toNat := fun t => by
      simp only [vs, List.count_cons]
      rw [count_map_inj _ proj_inj (fun K => decide (projWin K t))]
      simp
    have h2 : ∀ t, (vs t).count (JudgeName.loglik, true) = 1 * (decide (llWin t)).toNat := fun t => by
      simp only [vs, List.count_cons]
      rw [count_map_not _ _ _ _ (by intro a; simp)]
      by_cases h : llWin t <;> simp [h]
    simp only [h1, h2]
    rw [sum_toNat, sum_toNat, Nat.cast_one, one_mul]
    congr 1
    refine fraction_congr fun t ht => ?_
    obtain ⟨hQ, hX, hS⟩ := hok t ht
    have hs' := hS K (by omega)
    show _ < _ ↔ _ < _
    rw [kproj_wide (hpd t ht).1 t.X hX K hK _ hs'.1 hs'.2, kproj_wide (hpd t ht).2 t.X hX K hK _ hs'.1 hs'.2]
  · have h1 : ∀ t, (vs t).count (JudgeName.proj K, true) = ks.count K * (decide (projWin K t)).toNat := fun t => by
      simp only [vs, List.count_cons]
      rw [count_map_inj _ proj_inj (fun K => decide (projWin K t))]
      simp
    simp only [h1]
    rw [sum_toNat]
    obtain ⟨f0, f1⟩ := fraction_range (projWin K) trials
    have : (0 : ℝ) ≤ (ks.count K : ℝ) := by positivity
    exact ⟨mul_nonneg this f0, by nlinarith⟩

/-! ### `pseudo_likelihood_power` -/

/-- The draws of a clean trial are what NumPy's contracts promise: uniforms at least 0.3, noise whose symmetric part is not identically
zero, at least one test row. -/
def CleanTrial.Ok (t : CleanTrial p) : Prop :=
  (∀ i, 3 / 10 ≤ t.u i) ∧ toSymmetric t.nGood ≠ 0 ∧ toSymmetric t.nBad ≠ 0 ∧ t.X ≠ []

/-- Symmetric, positive definite and of condition number at most 1000. -/
def Conditioned (c : Matrix ι ι ℝ) : Prop := PD c ∧ ∃ m, 0 < m ∧ MinEigGE c (m / 1000) ∧ MaxEigLE c m

/-- C101: in a clean trial (noise levels below 1) the pair is formed; the two are the perturbed truths, of condition number at most 1000;
and the first is the one of smaller KL divergence from the truth. -/
theorem C101_clean_pair (hp : 1 ≤ p) (eg eb : ℝ) (hg : |eg| < 1) (hb : |eb| < 1) (t : CleanTrial p) (h : t.Ok) :
    ∃ g b, t.pair L eg eb = .ok (g, b) ∧ Conditioned g ∧ Conditioned b ∧
      gaussKL (spdFactor t.B t.u) g ≤ gaussKL (spdFactor t.B t.u) b ∧
      ((g = perturb L (spdFactor t.B t.u) eg t.nGood ∧ b = perturb L (spdFactor t.B t.u) eb t.nBad) ∨
       (g = perturb L (spdFactor t.B t.u) eb t.nBad ∧ b = perturb L (spdFactor t.B t.u) eg t.nGood ∧
        gaussKL (spdFactor t.B t.u) g < gaussKL (spdFactor t.B t.u) b)) := by
  haveI : Nonempty (Fin p) := ⟨⟨0, hp⟩⟩
  obtain ⟨hu, h1, h2, hX⟩ := h
  have hT := (C101_truth t.B t.u hu).2
  have ca := C101_estimate L hT eg hg _ h1
  have cb := C101_estimate L hT eb hb _ h2
  unfold CleanTrial.pair
  simp only []
  rw [kl_gaussKL hT ca.1, kl_gaussKL hT cb.1]
  simp only [bind, Except.bind, pure, Except.pure, WithTop.coe_le_coe]
  by_cases hle : gaussKL (spdFactor t.B t.u) (perturb L (spdFactor t.B t.u) eg t.nGood) ≤
      gaussKL (spdFactor t.B t.u) (perturb L (spdFactor t.B t.u) eb t.nBad)
  · rw [if_pos hle]
    exact ⟨_, _, rfl, ca, cb, hle, Or.inl ⟨rfl, rfl⟩⟩
  · rw [if_neg hle]
    push Not at hle
    exact ⟨_, _, rfl, cb, ca, hle.le, Or.inr ⟨rfl, rfl, hle⟩⟩

theorem pll_inj : Function.Injective JudgeName.pll := fun _ _ h => by injection h

theorem frob_lt (c d : Matrix (Fin p) (Fin p) ℝ) (X : List (Fin p → ℝ)) :
    frobenius d X < frobenius c X ↔ ∑ i, ∑ j, (c i j - covOf X i j) ^ 2 < ∑ i, ∑ j, (d i j - covOf X i j) ^ 2 := by
  rw [← not_le, ← not_le, (C80_frobenius c X).2.2 d]

open Classical in
/-- C101: `pseudo_likelihood_power(regime="clean")` on any positive number of trials completes; its entries are fractions of trials, and
every block size `b ≥ p` (`None` included) gives exactly the `full_loglik` entry, times the number of times `b` occurs in
`block_sizes`. -/
theorem C101_clean (hp : 1 ≤ p) (eg eb : ℝ) (hg : |eg| < 1) (hb : |eb| < 1) (blockSizes : List (Option ℕ)) (hk : ∀ k ∈ blockSizes, k ≠ some 0)
    (trials : List (CleanTrial p)) (hne : trials ≠ []) (hok : ∀ t ∈ trials, t.Ok) :
    ∃ (a : JudgeName → ℝ) (good bad : CleanTrial p → Matrix (Fin p) (Fin p) ℝ),
      (∀ t ∈ trials, t.pair L eg eb = .ok (good t, bad t)) ∧
      pseudoClean L eg eb blockSizes trials =
        .ok (([JudgeName.frobenius, JudgeName.fullLoglik] ++ blockSizes.map fun k => JudgeName.pll (k.getD p)).map fun m => (m, a m)) ∧
      a .fullLoglik = fraction (fun t => meanLogLik 0 (bad t) t.X < meanLogLik 0 (good t) t.X) trials ∧
      a .frobenius = fraction (fun t => ∑ i, ∑ j, (good t i j - covOf t.X i j) ^ 2 < ∑ i, ∑ j, (bad t i j - covOf t.X i j) ^ 2) trials ∧
      (∀ K, p ≤ K → a (.pll K) = ((blockSizes.map fun k => k.getD p).count K : ℝ) * a .fullLoglik) ∧
      (∀ K, 0 ≤ a (.pll K) ∧ a (.pll K) ≤ ((blockSizes.map fun k => k.getD p).count K : ℝ)) := by
  have hpair : ∀ t : CleanTrial p, ∃ gb : Matrix (Fin p) (Fin p) ℝ × Matrix (Fin p) (Fin p) ℝ, t ∈ trials →
      t.pair L eg eb = .ok gb ∧ Conditioned gb.1 ∧ Conditioned gb.2 := fun t => by
    by_cases ht : t ∈ trials
    · obtain ⟨g, b, h1, h2, h3, _⟩ := C101_clean_pair L hp eg eb hg hb t (hok t ht)
      exact ⟨(g, b), fun _ => ⟨h1, h2, h3⟩⟩
    · exact ⟨(0, 0), fun h => absurd h ht⟩
  choose gb hgb using hpair
  set ks := blockSizes.map fun k => k.getD p with hks
  let llWin : CleanTrial p → Prop := fun t => val (loglik (gb t).2 t.X) < val (loglik (gb t).1 t.X)
  let frWin : CleanTrial p → Prop := fun t => frobenius (gb t).2 t.X < frobenius (gb t).1 t.X
  let plWin : ℕ → CleanTrial p → Prop := fun K t => val (blockPseudoLoglik L (gb t).2 t.X K) < val (blockPseudoLoglik L (gb t).1 t.X K)
  let vs : CleanTrial p → List (JudgeName × Bool) := fun t =>
    (JudgeName.frobenius, decide (frWin t)) :: (JudgeName.fullLoglik, decide (llWin t)) ::
      ks.map fun K => (JudgeName.pll K, decide (plWin K t))
  have hpl : ∀ c : Matrix (Fin p) (Fin p) ℝ, Conditioned c → ∀ X K, 1 ≤ K → blockPseudoLoglik L c X K = .ok (val (blockPseudoLoglik L c X K)) := by
    intro c hc X K hK
    obtain ⟨h1, m, h2, h3, h4⟩ := hc
    obtain ⟨v, e, _⟩ := C80_pseudo_is_shipped L c h1.1 m h2 h3 h4 K hK X
    rw [e]; rfl
  have hvs : ∀ t ∈ trials, (do let ab ← t.pair L eg eb; pllTrial L (blockSizes.map (kOf p)) ab.1 ab.2 t.X) = .ok (vs t) := fun t ht => by
    obtain ⟨h0, h1, h2⟩ := hgb t ht
    obtain ⟨_, _, _, hX⟩ := hok t ht
    rw [h0]
    simp only [bind, Except.bind]
    unfold pllTrial
    obtain ⟨l1, l2, _⟩ := loglik_lt h1.1 h2.1 t.X hX
    have e4 : ((blockSizes.map (kOf p)).mapM fun b =>
        if b = 0 then (.error .valueError : Except PyErr (JudgeName × Bool))
        else verdict (JudgeName.pll b) (blockPseudoLoglik L (gb t).1 t.X b) (blockPseudoLoglik L (gb t).2 t.X b)) =
        .ok (ks.map fun K => (JudgeName.pll K, decide (plWin K t))) := by
      refine mapM_ok' _ (fun K => (JudgeName.pll K, decide (plWin K t))) ks fun K hKm => ?_
      obtain ⟨k, hkm, rfl⟩ := List.mem_map.1 hKm
      have hk1 : 1 ≤ k.getD p := by
        cases k with
        | none => exact hp
        | some k => have := hk _ hkm; simp at this ⊢; omega
      rw [if_neg (by omega)]
      exact (congrArg₂ (verdict (JudgeName.pll (k.getD p))) (hpl _ h1 t.X _ hk1) (hpl _ h2 t.X _ hk1)).trans rfl
    rw [l1, l2, verdict_ok, verdict_ok, e4]
    rfl
  have htab := (C101_table ([.frobenius, .fullLoglik] ++ (blockSizes.map (kOf p)).map .pll)
    (fun t : CleanTrial p => do let ab ← t.pair L eg eb; pllTrial L (blockSizes.map (kOf p)) ab.1 ab.2 t.X)).1 vs trials hne hvs
  rw [List.map_map] at htab
  have cll : ∀ t, (vs t).count (JudgeName.fullLoglik, true) = 1 * (decide (llWin t)).toNat := fun t => by
    simp only [vs, List.count_cons]
    rw [count_map_not _ _ _ _ (by intro a; simp)]
    by_cases h : llWin t <;> simp [h]
  have cpl : ∀ K t, (vs t).count (JudgeName.pll K, true) = ks.count K * (decide (plWin K t)).toNat := fun K t => by
    simp only [vs, List.count_cons]
    rw [count_map_inj _ pll_inj (fun K => decide (plWin K t))]
    simp
  refine ⟨fun m => (((trials.map fun t => (vs t).count (m, true)).sum : ℕ) : ℝ) / (trials.length : ℝ), fun t => (gb t).1, fun t => (gb t).2, fun t ht => (hgb t ht).1, ?_, ?_, ?_, fun K hK => ?_, fun K => ?_⟩
  · unfold pseudoClean
    simp only []
    rw [List.map_map]
    exact htab
  · simp only [cll]
    rw [sum_toNat, Nat.cast_one, one_mul]
    exact fraction_congr fun t ht => (loglik_lt (hgb t ht).2.1.1 (hgb t ht).2.2.1 t.X (hok t ht).2.2.2).2.2
  · have : ∀ t, (vs t).count (JudgeName.frobenius, true) = 1 * (decide (frWin t)).toNat := fun t => by
      simp only [vs, List.count_cons]
      rw [count_map_not _ _ _ _ (by intro a; simp)]
      by_cases h : frWin t <;> simp [h]
    simp only [this]
    rw [sum_toNat, Nat.cast_one, one_mul]
    exact fraction_congr fun t ht => frob_lt _ _ _
  · simp only [cll, cpl]
    rw [sum_toNat, sum_toNat, Nat.cast_one, one_mul]
    congr 1
    refine fraction_congr fun t ht => ?_
    obtain ⟨_, ⟨h1, m1, a1, a2, a3⟩, h2, m2, b1, b2, b3⟩ := hgb t ht
    obtain ⟨v, e, e'⟩ := C80_pseudo_full L _ h1.1 m1 a1 a2 a3 K hK (by omega) t.X (hok t ht).2.2.2
    obtain ⟨w, f, f'⟩ := C80_pseudo_full L _ h2.1 m2 b1 b2 b3 K hK (by omega) t.X (hok t ht).2.2.2
    show _ < _ ↔ _ < _
    rw [e, e', f, f']
    unfold val
    constructor <;> intro h <;> linarith
  · simp only [cpl]
    rw [sum_toNat]
    obtain ⟨f0, f1⟩ := fraction_range (plWin K) trials
    have : (0 : ℝ) ≤ (ks.count K : ℝ) := by positivity
    exact ⟨mul_nonneg this f0, by nlinarith⟩

/-- C101: with the shipped block sizes `(3, 10, 30, None)` the clean run has 20 variables, so that its columns `pll_b30` and `pll_b20` are
copies of `full_loglik`. -/
theorem C101_clean_shipped (eg eb : ℝ) (hg : |eg| < 1) (hb : |eb| < 1) (q : ℕ) (hq : 20 ≤ q)
    (trials : List (CleanTrial (min q 20))) (hne : trials ≠ []) (hok : ∀ t ∈ trials, t.Ok) :
    pseudoSizes "clean" q 20 = .ok (20, 0) ∧
    ∃ x y z w : ℝ, pseudoClean L eg eb [some 3, some 10, some 30, none] trials =
      .ok [(.frobenius, w), (.fullLoglik, x), (.pll 3, y), (.pll 10, z), (.pll 30, x), (.pll 20, x)] := by
  have hm : min q 20 = 20 := by omega
  refine ⟨by unfold pseudoSizes; simp [hm], ?_⟩
  obtain ⟨a, g, b, _, h, _, _, h3, _⟩ := C101_clean L (p := min q 20) (by omega) eg eb hg hb [some 3, some 10, some 30, none] (by simp) trials hne hok
  have e30 := h3 30 (by omega)
  have e20 := h3 20 (by omega)
  simp [hm] at e30 e20
  refine ⟨a .fullLoglik, a (.pll 3), a (.pll 10), a .frobenius, ?_⟩
  rw [h]
  simp [hm, e30, e20]

/-- C101 (finding): the clean regime never uses `bulk`, yet it raises as soon as `bulk` exceeds the number of variables it keeps (20). -/
theorem C101_clean_bulk (q bulk : ℕ) : min q 20 < bulk ↔ pseudoSizes "clean" q bulk = .error .valueError := by
  unfold pseudoSizes
  simp only [if_true]
  split <;> simp_all

/-! ### `schur_power` -/

theorem top_pos_of_trace [Nonempty ι] {m : Matrix ι ι ℝ} (h : 0 < m.trace) : ∃ c, TopEig m c ∧ 0 < c := by
  obtain ⟨c, hc⟩ := topEig_exists m
  refine ⟨c, hc, ?_⟩
  by_contra hneg
  push Not at hneg
  have : m.trace ≤ 0 := Finset.sum_nonpos fun i _ => by
    have := hc.1 (Pi.single i 1)
    rw [quad_single] at this
    exact le_trans this (mul_nonpos_of_nonpos_of_nonneg hneg (normSq_nonneg _))
  linarith

theorem projectPd_conditioned [Nonempty ι] {m : Matrix ι ι ℝ} (h : 0 < m.trace) : Conditioned (projectPd L m) := by
  obtain ⟨c, h1, h2⟩ := top_pos_of_trace h
  obtain ⟨g1, g2, g3⟩ := C79_conditioned L h1 h2 (1 / 1000) (by norm_num) (by norm_num)
  refine ⟨g1, c, h2, fun x => ?_, g3.1⟩
  rw [show c / 1000 = 1 / 1000 * c by ring]
  exact g2 x

theorem quad_perm (e : Equiv.Perm ι) (c : Matrix ι ι ℝ) (x : ι → ℝ) :
    quad (c.submatrix e e) x = quad c (fun i => x (e.symm i)) ∧ normSq x = normSq (fun i => x (e.symm i)) := by
  refine ⟨?_, ?_⟩
  · rw [quad_expand, quad_expand]
    refine Fintype.sum_equiv e _ _ fun i => ?_
    refine Fintype.sum_equiv e _ _ fun j => ?_
    simp
  · unfold normSq
    exact Fintype.sum_equiv e _ _ fun i => by simp

theorem Conditioned.perm {c : Matrix ι ι ℝ} (h : Conditioned c) (e : Equiv.Perm ι) : Conditioned (c.submatrix e e) := by
  obtain ⟨h1, m, h2, h3, h4⟩ := h
  have lo : MinEigGE (c.submatrix e e) (m / 1000) := fun x => by rw [(quad_perm e c x).1, (quad_perm e c x).2]; exact h3 _
  have hi : MaxEigLE (c.submatrix e e) m := fun x => by rw [(quad_perm e c x).1, (quad_perm e c x).2]; exact h4 _
  exact ⟨lo.pd (fun i j => h1.1 _ _) (by positivity), m, h2, lo, hi⟩

/-- C101: the two estimates of a trial of `schur_power` are of condition number at most 1000, whatever the noise, and the first is the one
whose within-group correlation `re` is nearer the truth `rho`. -/
theorem C101_schur_pair (hp : 1 ≤ p) (gs : ℕ) (rho sigCross eg eb : ℝ) (t : SchurTrial p) :
    Conditioned (t.pair L gs rho sigCross eg eb).1 ∧ Conditioned (t.pair L gs rho sigCross eg eb).2 ∧
    ((t.pair L gs rho sigCross eg eb = ((schurMake L gs rho sigCross eg t.perm t.signGood t.nGood).1,
        (schurMake L gs rho sigCross eb t.perm t.signBad t.nBad).1) ∧ |t.signGood * eg| ≤ |t.signBad * eb|) ∨
     (t.pair L gs rho sigCross eg eb = ((schurMake L gs rho sigCross eb t.perm t.signBad t.nBad).1,
        (schurMake L gs rho sigCross eg t.perm t.signGood t.nGood).1) ∧ |t.signBad * eb| < |t.signGood * eg|)) := by
  haveI : Nonempty (Fin p) := ⟨⟨0, hp⟩⟩
  have hm : ∀ err sign (n : Matrix (Fin p) (Fin p) ℝ), Conditioned (schurMake L gs rho sigCross err t.perm sign n).1 := fun err sign n => by
    unfold schurMake
    simp only []
    refine Conditioned.perm (projectPd_conditioned L ?_) _
    have : (Matrix.of fun i j : Fin p => if i.1 / gs ≠ j.1 / gs then within p gs (rho + sign * err) i j + sigCross * toSymmetric n i j
        else within p gs (rho + sign * err) i j).trace = p := by
      simp [trace, within]
    rw [this]
    exact_mod_cast hp
  unfold SchurTrial.pair
  simp only []
  have e : ∀ err sign (n : Matrix (Fin p) (Fin p) ℝ), (schurMake L gs rho sigCross err t.perm sign n).2 = |sign * err| := fun err sign n => by
    unfold schurMake; simp
  rw [e, e]
  split
  · rename_i h; exact ⟨hm _ _ _, hm _ _ _, Or.inl ⟨rfl, h⟩⟩
  · rename_i h; push Not at h; exact ⟨hm _ _ _, hm _ _ _, Or.inr ⟨rfl, h⟩⟩

/-- The matrix an estimate of `schur_power` is made of: ones on the diagonal, one correlation inside the groups, scaled symmetric noise between them. -/
noncomputable def groupedCorr (p gs : ℕ) (re sigCross : ℝ) (n : Matrix (Fin p) (Fin p) ℝ) : Matrix (Fin p) (Fin p) ℝ :=
  Matrix.of fun i j => if i = j then 1 else if i.1 / gs = j.1 / gs then re else sigCross * ((n i j + n j i) / 2)

theorem grouped_eq (gs : ℕ) (re sigCross : ℝ) (n : Matrix (Fin p) (Fin p) ℝ) :
    (Matrix.of fun i j : Fin p => if i.1 / gs ≠ j.1 / gs then within p gs re i j + sigCross * toSymmetric n i j else within p gs re i j) = groupedCorr p gs re sigCross n := by
  ext i j
  by_cases hij : i = j
  · subst hij; simp [groupedCorr, within]
  · by_cases hg : i.1 / gs = j.1 / gs
    · simp [groupedCorr, within, hij, hg]
    · simp only [groupedCorr, within, Matrix.of_apply, hij, hg, ne_eq, not_false_eq_true, if_true, if_false, toSymmetric]
      ring

/-- C101: an estimate of `schur_power` is, in shuffled order, the matrix with ones on the diagonal, `rho ± err` inside the groups and `sig_cross` times symmetric noise
between them, whenever that matrix has condition number at most 1000; otherwise its projection to one. -/
theorem C101_schur_estimate (gs : ℕ) (rho sigCross err sign : ℝ) (perm : Equiv.Perm (Fin p)) (n : Matrix (Fin p) (Fin p) ℝ) :
    (schurMake L gs rho sigCross err perm sign n).1 = (projectPd L (groupedCorr p gs (rho + sign * err) sigCross n)).submatrix perm perm ∧
    (1 ≤ p → Conditioned (groupedCorr p gs (rho + sign * err) sigCross n) →
      (schurMake L gs rho sigCross err perm sign n).1 = (groupedCorr p gs (rho + sign * err) sigCross n).submatrix perm perm) := by
  have e : (schurMake L gs rho sigCross err perm sign n).1 = (projectPd L (groupedCorr p gs (rho + sign * err) sigCross n)).submatrix perm perm := by
    unfold schurMake
    simp only []
    rw [grouped_eq]
  refine ⟨e, fun hp hc => ?_⟩
  haveI : Nonempty (Fin p) := ⟨⟨0, hp⟩⟩
  obtain ⟨h1, m, hm, lo, hi⟩ := hc
  rw [e, C79_id L (1 / 1000) m (by norm_num) (by rw [one_div_mul_eq_div]; exact lo) hi, toSymmetric_of_symm h1.1]

/-- Non-vacuity: two groups of one variable without noise are the identity. -/
example : Conditioned (groupedCorr 2 1 (1 / 2) 0 0) := by
  have e : groupedCorr 2 1 (1 / 2) 0 0 = 1 := by
    ext i j; fin_cases i <;> fin_cases j <;> simp [groupedCorr]
  rw [e]
  refine ⟨pd_one, 1, one_pos, fun x => ?_, fun x => ?_⟩
  · rw [quad_one]; have : 0 ≤ normSq x := Finset.sum_nonneg fun i _ => mul_self_nonneg _
    linarith
  · rw [quad_one, one_mul]

theorem gamma_inj : Function.Injective JudgeName.gamma := fun _ _ h => by injection h

open Classical in
/-- C101: `schur_power` on any positive number of trials completes for every list of `gamma`s; its `full` entry is the fraction of trials
in which the better estimate has the higher mean Gaussian log-density; every `gamma` in [0,1] has the fraction for the estimates with
their between-block entries multiplied by `gamma` (times its number of occurrences): the projection inside the judge never acts; in
particular `gamma = 1` is the `full` entry. -/
theorem C101_schur (hp : 1 ≤ p) (gs : ℕ) (rho sigCross eg eb : ℝ) (gammas : List ℝ) (trials : List (SchurTrial p)) (hne : trials ≠ [])
    (hX : ∀ t ∈ trials, t.X ≠ []) :
    ∃ (a : JudgeName → ℝ), schurPower L gs rho sigCross eg eb gammas trials =
        .ok ((JudgeName.full :: gammas.map fun x => JudgeName.gamma x).map fun m => (m, a m)) ∧
      a .full = fraction (fun t => meanLogLik 0 (t.pair L gs rho sigCross eg eb).2 t.X < meanLogLik 0 (t.pair L gs rho sigCross eg eb).1 t.X) trials ∧
      (∀ x, 0 ≤ x → x ≤ 1 → a (.gamma x) = (gammas.count x : ℝ) * fraction (fun t =>
        meanLogLik 0 (Matrix.of fun i j => if i.1 / gs = j.1 / gs then (t.pair L gs rho sigCross eg eb).2 i j
          else x * (t.pair L gs rho sigCross eg eb).2 i j) t.X <
        meanLogLik 0 (Matrix.of fun i j => if i.1 / gs = j.1 / gs then (t.pair L gs rho sigCross eg eb).1 i j
          else x * (t.pair L gs rho sigCross eg eb).1 i j) t.X) trials) ∧
      a (.gamma 1) = (gammas.count 1 : ℝ) * a .full ∧
      (∀ x, 0 ≤ a (.gamma x) ∧ a (.gamma x) ≤ (gammas.count x : ℝ)) := by
  haveI : Nonempty (Fin p) := ⟨⟨0, hp⟩⟩
  let gd : SchurTrial p → Matrix (Fin p) (Fin p) ℝ := fun t => (t.pair L gs rho sigCross eg eb).1
  let bd : SchurTrial p → Matrix (Fin p) (Fin p) ℝ := fun t => (t.pair L gs rho sigCross eg eb).2
  let bid : Fin p → ℕ := fun i => i.1 / gs
  have cg : ∀ t, Conditioned (gd t) := fun t => (C101_schur_pair L hp gs rho sigCross eg eb t).1
  have cb : ∀ t, Conditioned (bd t) := fun t => (C101_schur_pair L hp gs rho sigCross eg eb t).2.1
  let llWin : SchurTrial p → Prop := fun t => val (loglik (bd t) t.X) < val (loglik (gd t) t.X)
  let gWin : ℝ → SchurTrial p → Prop := fun x t => val (schurLoglik L (bd t) t.X bid x) < val (schurLoglik L (gd t) t.X bid x)
  let vs : SchurTrial p → List (JudgeName × Bool) := fun t =>
    (JudgeName.full, decide (llWin t)) :: gammas.map fun x => (JudgeName.gamma x, decide (gWin x t))
  have hsv : ∀ c : Matrix (Fin p) (Fin p) ℝ, Conditioned c → ∀ X, X ≠ [] → ∀ x, schurLoglik L c X bid x = .ok (val (schurLoglik L c X bid x)) := by
    intro c hc X hX x
    have : Conditioned (projectPd L (Matrix.of fun i j => if bid i ≠ bid j then c i j * x else c i j)) := by
      refine projectPd_conditioned L ?_
      have e : (Matrix.of fun i j => if bid i ≠ bid j then c i j * x else c i j).trace = c.trace := by simp [trace]
      rw [e]
      refine Finset.sum_pos (fun i _ => ?_) Finset.univ_nonempty
      have := hc.1.2 (Pi.single i 1) (by simp)
      rwa [quad_single] at this
    unfold schurLoglik
    rw [loglik_pd this.1 X hX]; rfl
  have hvs : ∀ t ∈ trials, schurTrial L gs rho sigCross eg eb gammas t = .ok (vs t) := fun t ht => by
    unfold schurTrial
    simp only []
    obtain ⟨l1, l2, _⟩ := loglik_lt (cg t).1 (cb t).1 t.X (hX t ht)
    have e4 : (gammas.mapM fun x => verdict (JudgeName.gamma x) (schurLoglik L (gd t) t.X bid x) (schurLoglik L (bd t) t.X bid x)) =
        .ok (gammas.map fun x => (JudgeName.gamma x, decide (gWin x t))) :=
      mapM_ok' _ _ gammas fun x _ =>
        (congrArg₂ (verdict (JudgeName.gamma x)) (hsv _ (cg t) t.X (hX t ht) x) (hsv _ (cb t) t.X (hX t ht) x)).trans rfl
    have e1 : verdict JudgeName.full (loglik (gd t) t.X) (loglik (bd t) t.X) = .ok (JudgeName.full, decide (llWin t)) :=
      (congrArg₂ (verdict JudgeName.full) l1 l2).trans rfl
    rw [show verdict JudgeName.full (loglik (t.pair L gs rho sigCross eg eb).1 t.X) (loglik (t.pair L gs rho sigCross eg eb).2 t.X) = _ from e1]
    simp only [bind, Except.bind]
    rw [show (gammas.mapM fun x => verdict (JudgeName.gamma x) (schurLoglik L (t.pair L gs rho sigCross eg eb).1 t.X (fun i => i.1 / gs) x)
      (schurLoglik L (t.pair L gs rho sigCross eg eb).2 t.X (fun i => i.1 / gs) x)) = _ from e4]
    rfl
  have htab := (C101_table (JudgeName.full :: gammas.map .gamma) (schurTrial L gs rho sigCross eg eb gammas)).1 vs trials hne hvs
  have cll : ∀ t, (vs t).count (JudgeName.full, true) = 1 * (decide (llWin t)).toNat := fun t => by
    simp only [vs, List.count_cons]
    rw [count_map_not _ _ _ _ (by intro a; simp)]
    by_cases h : llWin t <;> simp [h]
  have cga : ∀ x t, (vs t).count (JudgeName.gamma x, true) = gammas.count x * (decide (gWin x t)).toNat := fun x t => by
    simp only [vs, List.count_cons]
    rw [count_map_inj _ gamma_inj (fun x => decide (gWin x t))]
    simp
  refine ⟨fun m => (((trials.map fun t => (vs t).count (m, true)).sum : ℕ) : ℝ) / (trials.length : ℝ), htab, ?_, fun x x0 x1 => ?_, ?_, fun x => ?_⟩
  · simp only [cll]
    rw [sum_toNat, Nat.cast_one, one_mul]
    exact fraction_congr fun t ht => (loglik_lt (cg t).1 (cb t).1 t.X (hX t ht)).2.2
  · simp only [cga]
    rw [sum_toNat]
    congr 1
    refine fraction_congr fun t ht => ?_
    have hd : ∀ c : Matrix (Fin p) (Fin p) ℝ, Conditioned c →
        schurLoglik L c t.X bid x = loglik (Matrix.of fun i j => if i.1 / gs = j.1 / gs then c i j else x * c i j) t.X ∧
        PD (Matrix.of fun i j : Fin p => if i.1 / gs = j.1 / gs then c i j else x * c i j) := by
      rintro c ⟨h1, m, h2, h3, h4⟩
      refine ⟨((C80_schur L c h1.1 t.X bid).2 m h3 h4).1 x x0 x1, ?_⟩
      have e : (Matrix.of fun i j : Fin p => if i.1 / gs = j.1 / gs then c i j else x * c i j) =
          (Matrix.of fun i j => if bid i ≠ bid j then c i j * x else c i j) := by
        ext i j; simp only [of_apply, bid]; by_cases h : i.1 / gs = j.1 / gs <;> simp [h, mul_comm]
      rw [e]
      refine MinEigGE.pd (c := m / 1000) (fun i j => by simp only [of_apply, h1.1 i j, ne_comm (a := bid i)]) (by positivity) fun y => ?_
      rw [quad_damped, ← normSq_parts bid y]
      have ha := h3 y
      rw [← normSq_parts bid y] at ha
      have hb : m / 1000 * ∑ k ∈ Finset.univ.image bid, normSq (fun i => if bid i = k then y i else 0) ≤
          ∑ k ∈ Finset.univ.image bid, quad c (fun i => if bid i = k then y i else 0) := by
        rw [Finset.mul_sum]; exact Finset.sum_le_sum fun k _ => h3 _
      nlinarith
    show val (schurLoglik L (bd t) t.X bid x) < val (schurLoglik L (gd t) t.X bid x) ↔ _
    rw [(hd _ (cg t)).1, (hd _ (cb t)).1]
    exact (loglik_lt (hd _ (cg t)).2 (hd _ (cb t)).2 t.X (hX t ht)).2.2
  · simp only [cga, cll]
    rw [sum_toNat, sum_toNat, Nat.cast_one, one_mul]
    congr 1
    refine fraction_congr fun t ht => ?_
    obtain ⟨h1, m, h2, h3, h4⟩ := cg t
    obtain ⟨g1, n, g2, g3, g4⟩ := cb t
    show val (schurLoglik L (bd t) t.X bid 1) < val (schurLoglik L (gd t) t.X bid 1) ↔ _ < _
    rw [((C80_schur L _ h1.1 t.X bid).2 m h3 h4).2, ((C80_schur L _ g1.1 t.X bid).2 n g3 g4).2]
  · simp only [cga]
    rw [sum_toNat]
    obtain ⟨f0, f1⟩ := fraction_range (gWin x) trials
    have : (0 : ℝ) ≤ (gammas.count x : ℝ) := by positivity
    exact ⟨mul_nonneg this f0, by nlinarith⟩

/-- C101 (finding): `schur_power` raises `IndexError` whenever the number of groups does not divide the number of variables. -/
theorem C101_schur_sizes (q g : ℕ) (hg : 1 ≤ g) : schurSizes q g = .error .indexError ↔ ¬ g ∣ q := by
  unfold schurSizes
  rw [if_neg (by omega)]
  have : g * (q / g) = q ↔ g ∣ q := ⟨fun h => ⟨_, h.symm⟩, Nat.mul_div_cancel'⟩
  split <;> simp_all

/-! ### `projection_power` -/

/-- The gap of a trial: the difference of the two exact divergences (specification). -/
noncomputable def ProjTrial.gap (eg eb : ℝ) (t : ProjTrial p) : ℝ :=
  |gaussKL (spdFactor t.clean.B t.clean.u) (perturb L (spdFactor t.clean.B t.clean.u) eg t.clean.nGood) -
    gaussKL (spdFactor t.clean.B t.clean.u) (perturb L (spdFactor t.clean.B t.clean.u) eb t.clean.nBad)|

/-- The draws of a trial are what NumPy's contracts promise. -/
def ProjTrial.Ok (t : ProjTrial p) : Prop :=
  t.clean.Ok ∧ ∀ k, 1 ≤ k → t.subs k ≠ [] ∧ ∀ W ∈ t.subs k, W * Wᵀ = 1

theorem proj_fold (judge : ProjTrial p → Except PyErr (Option (List (Option ℕ × Bool)))) (keep : ProjTrial p → Prop) [DecidablePred keep]
    (vs : ProjTrial p → List (Option ℕ × Bool)) (trials : List (ProjTrial p))
    (h : ∀ t ∈ trials, judge t = .ok (if keep t then some (vs t) else none)) (c : Option ℕ → ℕ) (n : ℕ) :
    trials.foldlM (fun (acc : (Option ℕ → ℕ) × ℕ) t => do return projCount acc (← judge t)) (c, n) =
    (.ok ((fun m => c m + ((trials.filter keep).map fun t => (vs t).count (m, true)).sum), n + (trials.filter keep).length) :
      Except PyErr ((Option ℕ → ℕ) × ℕ)) := by
  induction trials generalizing c n with
  | nil => simp [pure, Except.pure]
  | cons t ts ih =>
    rw [List.foldlM_cons, h t (by simp)]
    by_cases hk : keep t
    · simp only [if_pos hk, bind, Except.bind, pure, Except.pure, projCount] at ih ⊢
      rw [ih (fun u hu => h u (by simp [hu]))]
      simp only [List.filter_cons, hk, decide_true, if_true, List.map_cons, List.sum_cons, List.length_cons]
      congr 2
      · funext m; rw [bump_fold, add_assoc]; congr!
      · omega
    · simp only [if_neg hk, bind, Except.bind, pure, Except.pure, projCount] at ih ⊢
      rw [ih (fun u hu => h u (by simp [hu]))]
      simp [List.filter_cons, hk]

open Classical in
/-- C101: `projection_power` counts exactly the trials whose KL gap is at least `min_gap` (and divides by zero if there is none); its entry
for a dimension of at least `p` (`None`) is the fraction of these in which the estimate of smaller divergence has the higher mean
Gaussian log-density, times the number of occurrences of that key. -/
theorem C101_projection (hp : 1 ≤ p) (eg eb minGap : ℝ) (hg : |eg| < 1) (hb : |eb| < 1) (kList : List (Option ℕ)) (hk : ∀ k ∈ kList, k ≠ some 0)
    (trials : List (ProjTrial p)) (hok : ∀ t ∈ trials, t.Ok) :
    ∃ good bad : ProjTrial p → Matrix (Fin p) (Fin p) ℝ, (∀ t ∈ trials, t.clean.pair L eg eb = .ok (good t, bad t)) ∧
      (trials.filter (fun t => minGap ≤ t.gap L eg eb) = [] → kList ≠ [] → projectionPower L eg eb minGap kList trials = .error .zeroDivision) ∧
      (trials.filter (fun t => minGap ≤ t.gap L eg eb) ≠ [] → ∃ a : Option ℕ → ℝ,
        projectionPower L eg eb minGap kList trials = .ok (kList.map fun k => (k, a k)) ∧
        (∀ k, p ≤ k.getD p → a k = (kList.count k : ℝ) * fraction (fun t => meanLogLik 0 (bad t) t.clean.X < meanLogLik 0 (good t) t.clean.X)
          (trials.filter fun t => minGap ≤ t.gap L eg eb)) ∧
        (∀ k, 0 ≤ a k ∧ a k ≤ (kList.count k : ℝ))) := by
  have hpair : ∀ t : ProjTrial p, ∃ gb : Matrix (Fin p) (Fin p) ℝ × Matrix (Fin p) (Fin p) ℝ, t ∈ trials →
      t.clean.pair L eg eb = .ok gb ∧ PD gb.1 ∧ PD gb.2 := fun t => by
    by_cases ht : t ∈ trials
    · obtain ⟨g, b, h1, h2, h3, _⟩ := C101_clean_pair L hp eg eb hg hb t.clean (hok t ht).1
      exact ⟨(g, b), fun _ => ⟨h1, h2.1, h3.1⟩⟩
    · exact ⟨(0, 0), fun h => absurd h ht⟩
  choose gb hgb using hpair
  let keep : ProjTrial p → Prop := fun t => minGap ≤ t.gap L eg eb
  let win : Option ℕ → ProjTrial p → Prop := fun k t =>
    val (kprojLoglik (gb t).2 t.clean.X (t.subs (k.getD p))) < val (kprojLoglik (gb t).1 t.clean.X (t.subs (k.getD p)))
  let vs : ProjTrial p → List (Option ℕ × Bool) := fun t => kList.map fun k => (k, decide (win k t))
  have hvs : ∀ t ∈ trials, projTrial L eg eb minGap kList t = .ok (if keep t then some (vs t) else none) := fun t ht => by
    haveI : Nonempty (Fin p) := ⟨⟨0, hp⟩⟩
    obtain ⟨h0, h1, h2⟩ := hgb t ht
    obtain ⟨⟨hu, n1, n2, hX⟩, hS⟩ := hok t ht
    have hT := (C101_truth t.clean.B t.clean.u hu).2
    have ca := C101_estimate L hT eg hg _ n1
    have cb := C101_estimate L hT eb hb _ n2
    unfold CleanTrial.pair at h0
    unfold projTrial
    simp only [] at h0 ⊢
    rw [kl_gaussKL hT ca.1, kl_gaussKL hT cb.1] at h0 ⊢
    simp only [bind, Except.bind, pure, Except.pure] at h0 ⊢
    injection h0 with h0
    rw [h0]
    by_cases hkp : keep t
    · have e4 : (kList.mapM fun k =>
          let kk := kOf p k
          if kk = 0 then (.error .zeroDivision : Except PyErr (Option ℕ × Bool))
          else verdict k (kprojLoglik (gb t).1 t.clean.X (t.subs kk)) (kprojLoglik (gb t).2 t.clean.X (t.subs kk))) = .ok (vs t) := by
        refine mapM_ok' _ (fun k => (k, decide (win k t))) kList fun k hkm => ?_
        have hk1 : 1 ≤ k.getD p := by
          cases k with
          | none => exact hp
          | some k => have := hk _ hkm; simp at this ⊢; omega
        have hs' := hS _ hk1
        show (if k.getD p = 0 then _ else _) = _
        rw [if_neg (by omega)]
        exact (congrArg₂ (verdict k) (kproj_val h1 t.clean.X hX _ hs'.2) (kproj_val h2 t.clean.X hX _ hs'.2)).trans rfl
      have hkp' : ¬ (|WithTop.untopD 0 ((gaussKL (spdFactor t.clean.B t.clean.u) (perturb L (spdFactor t.clean.B t.clean.u) eg t.clean.nGood) : ℝ) : WithTop ℝ) -
        WithTop.untopD 0 ((gaussKL (spdFactor t.clean.B t.clean.u) (perturb L (spdFactor t.clean.B t.clean.u) eb t.clean.nBad) : ℝ) : WithTop ℝ)| < minGap) := not_lt.2 hkp
      rw [if_neg hkp', if_pos hkp]
      simp only [] at e4
      rw [e4]
    · have hkp' : (|WithTop.untopD 0 ((gaussKL (spdFactor t.clean.B t.clean.u) (perturb L (spdFactor t.clean.B t.clean.u) eg t.clean.nGood) : ℝ) : WithTop ℝ) -
        WithTop.untopD 0 ((gaussKL (spdFactor t.clean.B t.clean.u) (perturb L (spdFactor t.clean.B t.clean.u) eb t.clean.nBad) : ℝ) : WithTop ℝ)| < minGap) := not_le.1 hkp
      rw [if_pos hkp', if_neg hkp]
  have hf := proj_fold (projTrial L eg eb minGap kList) keep vs trials hvs (fun _ => 0) 0
  have cw : ∀ k t, (vs t).count (k, true) = kList.count k * (decide (win k t)).toNat := fun k t => by
    convert count_map_inj (fun k : Option ℕ => k) (fun _ _ h => h) (fun k => decide (win k t)) kList k
  refine ⟨fun t => (gb t).1, fun t => (gb t).2, fun t ht => (hgb t ht).1, fun he hn => ?_, fun he => ?_⟩
  · unfold projectionPower
    rw [hf]
    simp only [bind, Except.bind]
    rw [if_pos ⟨by simpa [keep] using he, hn⟩]
  · refine ⟨fun m => ((((trials.filter keep).map fun t => (vs t).count (m, true)).sum : ℕ) : ℝ) / ((trials.filter keep).length : ℝ), ?_, fun k hkp => ?_,
      fun k => ?_⟩
    · unfold projectionPower
      rw [hf]
      simp only [bind, Except.bind, pure, Except.pure, zero_add]
      rw [if_neg]
      rintro ⟨h, _⟩
      exact he (List.length_eq_zero_iff.1 h)
    · simp only [cw]
      rw [sum_toNat]
      congr 1
      refine fraction_congr fun t ht => ?_
      have ht' := (List.mem_filter.1 ht).1
      obtain ⟨h0, h1, h2⟩ := hgb t ht'
      obtain ⟨⟨hu, n1, n2, hX⟩, hS⟩ := hok t ht'
      have hs' := hS (k.getD p) (by omega)
      show val _ < val _ ↔ _
      rw [kproj_wide h1 t.clean.X hX _ hkp _ hs'.1 hs'.2, kproj_wide h2 t.clean.X hX _ hkp _ hs'.1 hs'.2]
      exact (loglik_lt h1 h2 t.clean.X hX).2.2
    · simp only [cw]
      rw [sum_toNat]
      obtain ⟨f0, f1⟩ := fraction_range (win k) (trials.filter keep)
      have : (0 : ℝ) ≤ (kList.count k : ℝ) := by positivity
      exact ⟨mul_nonneg this f0, by nlinarith⟩

/-! ### The noisy tail -/

theorem projectPd_diagonal [Nonempty ι] (w : ι → ℝ) (c : ℝ) (h : ∀ i, w i ≤ c) (i0 : ι) (h0 : w i0 = c) :
    projectPd L (diagonal w) = diagonal fun i => max (w i) (c / 1000) := by
  have ht : TopEig (diagonal w) c := by
    refine ⟨fun x => ?_, Pi.single i0 1, by simp, ?_⟩
    · rw [quad_diagonal]
      unfold normSq
      rw [Finset.mul_sum]
      exact Finset.sum_le_sum fun i _ => mul_le_mul_of_nonneg_right (h i) (mul_self_nonneg _)
    · rw [quad_single, diagonal_apply_eq, h0]
      simp [normSq, Pi.single_apply]
  have e1 : ∀ w : ι → ℝ, spec 1 w = diagonal w := fun w => by unfold spec; simp
  rw [projectPd_eq L ht, makePosDef_of_spec L (v := 1) (by simp) (w := w) (by rw [e1, toSymmetric_of_symm (symm_diagonal w)]), e1]
  congr 1
  funext i
  rw [show 1 / 1000 * c = c / 1000 by ring]

/-- A tail trial: bulk eigenvalue 5, estimated exactly by both; tail eigenvalue estimated 0.001 by one and 0.002 by the other. -/
noncomputable def noisySetup : TailSetup 1 := ⟨fun _ => 5, 1 / 10, 22 / 100, 1, 1 / 20⟩
noncomputable def noisyTrial : TailTrial 1 1 :=
  ⟨1, 0, fun _ => Real.log (1 / 50), 0, fun _ => Real.log (2 / 50), [Pi.single 0 1], fun _ => [Matrix.of fun i j => if i.1 = j.1 then 1 else 0]⟩

theorem noisy_pair : noisyTrial.pair noisySetup = (diagonal (![5, 1 / 1000] : Fin 2 → ℝ), diagonal (![5, 2 / 1000] : Fin 2 → ℝ)) := by
  have e : ∀ w : Fin (1 + 1) → ℝ, eigRecompose (1 : Matrix (Fin (1 + 1)) (Fin (1 + 1)) ℝ) w = diagonal w := fun w => by
    rw [eigRecompose_eq]; unfold spec; simp
  unfold TailTrial.pair tailEstimate noisyTrial noisySetup
  simp only []
  rw [if_pos (by simp), e, e]
  refine Prod.ext ?_ ?_
  all_goals
    refine congrArg diagonal ?_
    funext i
    refine Fin.addCases (fun i => ?_) (fun j => ?_) i
    · rw [Fin.append_left]
      have : i = 0 := Subsingleton.elim _ _
      subst this
      simp [Fin.castAdd]
      norm_num
    · rw [Fin.append_right]
      have : j = 0 := Subsingleton.elim _ _
      subst this
      rw [one_mul, Real.exp_log (by norm_num), max_eq_left (by norm_num)]
      simp [Fin.natAdd]
      norm_num

theorem noisy_loglik : meanLogLik 0 (diagonal (![5, 2 / 1000] : Fin 2 → ℝ)) [Pi.single 0 1] < meanLogLik 0 (diagonal (![5, 1 / 1000] : Fin 2 → ℝ)) [Pi.single 0 1] := by
  have hpd : ∀ x : ℝ, 0 < x → PD (diagonal (![5, x] : Fin 2 → ℝ)) := fun x hx => pd_diagonal fun i => by fin_cases i <;> simp [hx]
  have hval : ∀ x : ℝ, 0 < x → meanLogLik 0 (diagonal (![5, x] : Fin 2 → ℝ)) ([Pi.single 0 1] : List (Fin 2 → ℝ)) =
      -(1/2) * (1 / 5) - (1 / 2) * (2 * Real.log (2 * Real.pi) + Real.log (5 * x)) := by
    intro x hx
    rw [meanLogLik_zero_eq (hpd x hx) ([Pi.single 0 1] : List (Fin 2 → ℝ)) (by simp)]
    have hinv : (diagonal (![5, x] : Fin 2 → ℝ))⁻¹ = diagonal ![1 / 5, 1 / x] := by
      refine inv_eq_left_inv ?_
      rw [diagonal_mul_diagonal, ← diagonal_one]
      congr 1; funext i; fin_cases i <;> simp [hx.ne']
    have ht : ((diagonal ![1 / 5, 1 / x] : Matrix (Fin 2) (Fin 2) ℝ) * secondMoment ([Pi.single 0 1] : List (Fin 2 → ℝ))).trace = 1 / 5 := by
      simp [trace, Fin.sum_univ_two, diagonal_mul, secondMoment, vecMulVec_apply]
    rw [hinv, ht, det_diagonal]
    simp [Fin.prod_univ_two]
  rw [hval _ (by norm_num), hval _ (by norm_num)]
  have := Real.log_lt_log (x := (5 : ℝ) * (1 / 1000)) (y := 5 * (2 / 1000)) (by norm_num) (by norm_num)
  linarith

/-- C101 (finding): in the noisy-tail regime `block_size=None` is *not* the full likelihood: the judge clips the eigenvalues below a
thousandth of the largest one (the shipped tail, 0.05 with log-normal noise against a bulk of 2 to 6, reaches there), so that here the
full likelihood has power 1 and `pll_b2` power 0 on the same trial. -/
theorem C101_noisy_full_differs :
    noisyTrial.Ok ∧ ∃ f : ℝ, pseudoNoisy L noisySetup [none] [noisyTrial] = .ok [(.frobenius, f), (.fullLoglik, 1), (.pll 2, 0)] := by
  classical
  refine ⟨⟨by simp [noisyTrial], by simp [noisyTrial], fun k hk => ⟨by simp [noisyTrial], fun W hW => ?_⟩⟩, ?_⟩
  · have hW' : W = Matrix.of fun i j => if i.1 = j.1 then 1 else 0 := by simpa [noisyTrial] using hW
    subst hW'
    ext i j
    simp only [mul_apply, of_apply, transpose_apply, one_apply]
    have hi : i.1 < 1 + 1 := lt_of_lt_of_le i.2 (min_le_left _ _)
    rw [Finset.sum_eq_single ⟨i.1, hi⟩]
    · simp [Fin.ext_iff, eq_comm]
    · intro b _ hb
      have : ¬ i.1 = b.1 := fun h => hb (Fin.ext h.symm)
      simp [this]
    · simp
  · have hpd : ∀ x : ℝ, 0 < x → PD (diagonal (![5, x] : Fin 2 → ℝ)) := fun x hx => pd_diagonal fun i => by fin_cases i <;> simp [hx]
    set X : List (Fin 2 → ℝ) := [Pi.single 0 1] with hX
    have hterm : ∃ v, ∀ x : ℝ, 0 < x → x ≤ 5 / 1000 → blockPseudoLoglik L (diagonal (![5, x] : Fin 2 → ℝ)) X 2 = .ok v := by
      have hr : pyRangeStep 2 2 = [0] := by decide
      let ix : Fin 2 → ℝ := ![5, 5 / 1000]
      have hproj : ∀ x : ℝ, 0 < x → x ≤ 5 / 1000 →
          projectPd L ((diagonal (![5, x] : Fin 2 → ℝ)).submatrix Subtype.val Subtype.val : Matrix (SliceIx 2 0 (min (0 + 2) 2)) (SliceIx 2 0 (min (0 + 2) 2)) ℝ) =
          diagonal fun i => ix i.1 := by
        intro x hx0 hx1
        haveI : Nonempty (SliceIx 2 0 (min (0 + 2) 2)) := ⟨⟨0, by simp⟩⟩
        rw [submatrix_diagonal _ _ Subtype.val_injective, projectPd_diagonal L _ 5 (fun i => ?_) ⟨0, by simp⟩ (by simp)]
        · congr 1
          funext i
          obtain ⟨i, hi⟩ := i
          fin_cases i
          · simp [ix]; norm_num
          · simp [ix]; linarith
        · obtain ⟨i, hi⟩ := i
          fin_cases i
          · simp
          · simp; linarith
      refine ⟨0 + val (pseudoTerm L (diagonal (![5, 1 / 1000] : Fin 2 → ℝ)) X 2 0), fun x hx0 hx1 => ?_⟩
      unfold blockPseudoLoglik
      rw [hr]
      have hd : (diagonal fun i : SliceIx 2 0 (min (0 + 2) 2) => ix i.1).det ≠ 0 := by
        rw [det_diagonal, Finset.prod_ne_zero_iff]
        rintro ⟨i, hi⟩ _
        fin_cases i <;> simp [ix]
      have hv : ∀ x : ℝ, 0 < x → x ≤ 5 / 1000 → ∃ v, pseudoTerm L (diagonal (![5, x] : Fin 2 → ℝ)) X 2 0 = .ok v ∧
          pseudoTerm L (diagonal (![5, 1 / 1000] : Fin 2 → ℝ)) X 2 0 = .ok v := by
        intro x h0 h1
        unfold pseudoTerm
        simp only []
        rw [hproj x h0 h1, hproj (1 / 1000) (by norm_num) (by norm_num), if_neg hd]
        exact ⟨_, rfl, rfl⟩
      obtain ⟨v, e1, e2⟩ := hv x hx0 hx1
      rw [e2]
      simp [e1, bind, Except.bind, pure, Except.pure, val]
    obtain ⟨v, hv⟩ := hterm
    have hg := hv (1 / 1000) (by norm_num) (by norm_num)
    have hb := hv (2 / 1000) (by norm_num) (by norm_num)
    have hll : meanLogLik 0 (diagonal (![5, 2 / 1000] : Fin 2 → ℝ)) X < meanLogLik 0 (diagonal (![5, 1 / 1000] : Fin 2 → ℝ)) X := noisy_loglik
    obtain ⟨l1, l2, l3⟩ := loglik_lt (hpd (1 / 1000) (by norm_num)) (hpd (2 / 1000) (by norm_num)) X (by simp [hX])
    have hj : pllTrial L (([none] : List (Option ℕ)).map (kOf (1 + 1))) (noisyTrial.pair noisySetup).1 (noisyTrial.pair noisySetup).2 noisyTrial.X =
        .ok [(.frobenius, open Classical in decide (frobenius (diagonal (![5, 2 / 1000] : Fin 2 → ℝ)) X < frobenius (diagonal (![5, 1 / 1000] : Fin 2 → ℝ)) X)),
          (.fullLoglik, true), (.pll 2, false)] := by
      rw [noisy_pair]
      unfold pllTrial
      have e1 := (congrArg₂ (verdict JudgeName.fullLoglik) l1 l2).trans (verdict_ok _ _ _)
      rw [decide_eq_true (l3.2 hll)] at e1
      have e2 := (congrArg₂ (verdict (JudgeName.pll 2)) hg hb).trans (verdict_ok _ _ _)
      rw [decide_eq_false (lt_irrefl v)] at e2
      have e3 : ((([none] : List (Option ℕ)).map (kOf (1 + 1))).mapM fun b =>
          if b = 0 then (.error .valueError : Except PyErr (JudgeName × Bool))
          else verdict (JudgeName.pll b) (blockPseudoLoglik L (diagonal (![5, 1 / 1000] : Fin 2 → ℝ)) X b)
            (blockPseudoLoglik L (diagonal (![5, 2 / 1000] : Fin 2 → ℝ)) X b)) = .ok [(JudgeName.pll 2, false)] := by
        have : ([none] : List (Option ℕ)).map (kOf (1 + 1)) = [2] := rfl
        rw [this, List.mapM_cons, if_neg (by norm_num), e2]
        rfl
      have e4 : ∀ v1 v2 : JudgeName × Bool, (do
          let w1 ← (.ok v1 : Except PyErr (JudgeName × Bool)); let w2 ← (.ok v2 : Except PyErr (JudgeName × Bool))
          let vs ← (.ok [(JudgeName.pll 2, false)] : Except PyErr (List (JudgeName × Bool))); return w1 :: w2 :: vs) =
          (.ok [v1, v2, (JudgeName.pll 2, false)] : Except PyErr (List (JudgeName × Bool))) := fun _ _ => rfl
      rw [← e4, ← e3, ← e1]
      rfl
    generalize (open Classical in decide (frobenius (diagonal (![5, 2 / 1000] : Fin 2 → ℝ)) X < frobenius (diagonal (![5, 1 / 1000] : Fin 2 → ℝ)) X)) = d at hj
    refine ⟨if d then 1 else 0, ?_⟩
    unfold pseudoNoisy
    simp only []
    rw [(C101_table _ _).1 (fun _ => _) [noisyTrial] (by simp) (fun t ht => by rw [List.mem_singleton.1 ht]; exact hj)]
    cases d <;> simp [kOf, List.count_cons]

/-- Non-vacuity: trials that meet the contracts exist, and (finding) a dimension given both as a number and as `None` is counted twice:
the reported "power" of `proj_k2` is then 2. -/
theorem C101_double_count : ∃ a b : ℝ, proofHighDim noisySetup [none, some 2] [noisyTrial] =
    .ok [(.loglik, 1), (.stein, a), (.frobenius, b), (.proj 2, 2), (.proj 2, 2)] := by
  obtain ⟨hok, _⟩ := C101_noisy_full_differs Lapack.exact
  obtain ⟨a, h1, h2, h3, h4, h5, h6⟩ := C101_high_dim noisySetup [none, some 2] (by simp) (by norm_num) [noisyTrial] (by simp)
    (fun t ht => by rw [List.mem_singleton.1 ht]; exact hok)
  have hw : meanLogLik 0 (noisyTrial.pair noisySetup).2 noisyTrial.X < meanLogLik 0 (noisyTrial.pair noisySetup).1 noisyTrial.X := by
    rw [noisy_pair]; exact noisy_loglik
  have e1 : a .loglik = 1 := by rw [h2]; simp [fraction, hw]
  have e2 := h5 2 le_rfl
  rw [e1] at e2
  simp at e2
  refine ⟨a .stein, a .frobenius, ?_⟩
  rw [h1]
  simp [e1, e2]

/-- Non-vacuity: draws that meet the contracts of the clean trials and of `projection_power`. -/
example : ∃ t : ProjTrial 2, t.Ok := by
  let W : (k : ℕ) → Matrix (Fin (subDim 2 k)) (Fin 2) ℝ := fun k => Matrix.of fun i j => if i.1 = j.1 then 1 else 0
  refine ⟨⟨⟨0, fun _ => 1, 1, !![0, 1; 1, 0], [![1, 0]]⟩, fun k => [W k]⟩, ⟨fun i => by norm_num, ?_, ?_, by simp⟩, fun k hk => ⟨by simp, fun V hV => ?_⟩⟩
  · intro h; have := congrFun (congrFun h 0) 0; simp [toSymmetric_eq] at this
  · intro h; have := congrFun (congrFun h 0) 1; simp [toSymmetric_eq] at this
  · rw [List.mem_singleton.1 hV]
    ext i j
    simp only [W, mul_apply, of_apply, transpose_apply, one_apply]
    have hi : i.1 < 2 := lt_of_lt_of_le i.2 (min_le_left _ _)
    rw [Finset.sum_eq_single ⟨i.1, hi⟩]
    · simp [Fin.ext_iff, eq_comm]
    · intro b _ hb
      have : ¬ i.1 = b.1 := fun h => hb (Fin.ext h.symm)
      simp [this]
    · simp

end Precise.Power
