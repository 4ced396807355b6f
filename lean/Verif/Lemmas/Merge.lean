import Verif.Spec.Forgetting
import Verif.Lemmas.Continuity
import Mathlib.Topology.MetricSpace.ProperSpace.Lemmas
import Mathlib.Topology.UniformSpace.HeineCantor
import Mathlib.Analysis.SpecificLimits.Basic
import Mathlib.Analysis.Asymptotics.SpecificAsymptotics

/-!
# Pairs of bounded sequences whose difference vanishes
-/

set_option linter.all false

open Filter Topology

namespace Precise

open Spec

/-- `u (k+1) ≤ q u k + w k` with `q < 1` and `w → 0` drives `u` to zero. -/
theorem tendsto_of_contract {u w : ℕ → ℝ} {q : ℝ} (h0 : 0 ≤ q) (h1 : q < 1) (hw : Tendsto w atTop (𝓝 0))
    (h : ∀ᶠ k in atTop, |u (k + 1)| ≤ q * |u k| + w k) : Tendsto u atTop (𝓝 0) := by
  rw [Metric.tendsto_atTop]
  intro e he
  have hq : 0 < 1 - q := by linarith
  have hw' : ∀ᶠ k in atTop, w k < (1 - q) * (e / 2) := hw.eventually (gt_mem_nhds (by positivity))
  obtain ⟨N, hN⟩ := eventually_atTop.1 (h.and hw')
  have step : ∀ j, |u (N + j)| ≤ q ^ j * |u N| + e / 2 := by
    intro j
    induction j with
    | zero => simp; linarith
    | succ j ih =>
      obtain ⟨a, b⟩ := hN (N + j) (by omega)
      calc |u (N + (j + 1))| ≤ q * |u (N + j)| + w (N + j) := a
        _ ≤ q * (q ^ j * |u N| + e / 2) + (1 - q) * (e / 2) := by gcongr
        _ = q ^ (j + 1) * |u N| + e / 2 := by ring
  have hp : Tendsto (fun j => q ^ j * |u N|) atTop (𝓝 (0 * |u N|)) := (tendsto_pow_atTop_nhds_zero_of_lt_one h0 h1).mul_const _
  rw [zero_mul] at hp
  obtain ⟨J, hJ⟩ := eventually_atTop.1 (hp.eventually (gt_mem_nhds (show (0:ℝ) < e / 2 by positivity)))
  refine ⟨N + J, fun k hk => ?_⟩
  obtain ⟨j, rfl⟩ := Nat.exists_eq_add_of_le (show N ≤ k by omega)
  rw [Real.dist_eq, sub_zero]
  have := hJ j (by omega)
  linarith [step j]

theorem bound_of_contract {u : ℕ → ℝ} {q b : ℝ} (h0 : 0 ≤ q) (h1 : q < 1) (h : ∀ᶠ k in atTop, |u (k + 1)| ≤ q * |u k| + b) :
    ∃ B : ℝ, ∀ᶠ k in atTop, |u k| ≤ B := by
  obtain ⟨N, hN⟩ := eventually_atTop.1 h
  have hq : 0 < 1 - q := by linarith
  set B := max |u N| (b / (1 - q)) with hB
  refine ⟨B, eventually_atTop.2 ⟨N, fun k hk => ?_⟩⟩
  obtain ⟨j, rfl⟩ := Nat.exists_eq_add_of_le hk
  induction j with
  | zero => exact le_max_left _ _
  | succ j ih =>
    have h2 : b ≤ (1 - q) * B := by
      have := (div_le_iff₀ hq).1 (le_max_right |u N| (b / (1 - q)))
      rw [← hB] at this; linarith
    calc |u (N + (j + 1))| ≤ q * |u (N + j)| + b := hN (N + j) (by omega)
      _ ≤ q * B + (1 - q) * B := by have := ih (by omega); gcongr
      _ = B := by ring

namespace Spec.Merge

variable {u v u' v' : ℕ → ℝ}

theorem congr (h : Merge u v) (hu : ∀ᶠ k in atTop, u' k = u k) (hv : ∀ᶠ k in atTop, v' k = v k) : Merge u' v' := by
  obtain ⟨B, hB⟩ := h.bound
  refine ⟨⟨B, ?_⟩, h.lim.congr' ?_⟩
  · filter_upwards [hB, hu, hv] with k a b c; rw [b, c]; exact a
  · filter_upwards [hu, hv] with k b c; rw [b, c]

theorem const (c : ℝ) : Merge (fun _ => c) (fun _ => c) := ⟨⟨|c|, Eventually.of_forall fun _ => ⟨le_rfl, le_rfl⟩⟩, by simp⟩

theorem add (h : Merge u v) (h' : Merge u' v') : Merge (fun k => u k + u' k) (fun k => v k + v' k) := by
  obtain ⟨B, hB⟩ := h.bound
  obtain ⟨B', hB'⟩ := h'.bound
  refine ⟨⟨B + B', ?_⟩, ?_⟩
  · filter_upwards [hB, hB'] with k a b
    exact ⟨(abs_add_le _ _).trans (add_le_add a.1 b.1), (abs_add_le _ _).trans (add_le_add a.2 b.2)⟩
  · have := h.lim.add h'.lim
    rw [add_zero] at this
    exact this.congr fun k => by ring

theorem mul (h : Merge u v) (h' : Merge u' v') : Merge (fun k => u k * u' k) (fun k => v k * v' k) := by
  obtain ⟨B, hB⟩ := h.bound
  obtain ⟨B', hB'⟩ := h'.bound
  refine ⟨⟨B * B', ?_⟩, ?_⟩
  · filter_upwards [hB, hB'] with k a b
    rw [abs_mul, abs_mul]
    have := (abs_nonneg _).trans a.1
    exact ⟨mul_le_mul a.1 b.1 (abs_nonneg _) this, mul_le_mul a.2 b.2 (abs_nonneg _) this⟩
  · have h1 : Tendsto (fun k => B * |u' k - v' k| + B' * |u k - v k|) atTop (𝓝 0) := by
      have := (h'.lim.abs.const_mul B).add (h.lim.abs.const_mul B')
      simpa using this
    refine squeeze_zero_norm' ?_ h1
    filter_upwards [hB, hB'] with k a b
    rw [Real.norm_eq_abs]
    have e : u k * u' k - v k * v' k = u k * (u' k - v' k) + (u k - v k) * v' k := by ring
    rw [e]
    refine (abs_add_le _ _).trans ?_
    rw [abs_mul, abs_mul, mul_comm |u k - v k|]
    exact add_le_add (mul_le_mul_of_nonneg_right a.1 (abs_nonneg _)) (mul_le_mul_of_nonneg_right b.2 (abs_nonneg _))

theorem const_mul (c : ℝ) (h : Merge u v) : Merge (fun k => c * u k) (fun k => c * v k) := (const c).mul h

theorem sub (h : Merge u v) (h' : Merge u' v') : Merge (fun k => u k - u' k) (fun k => v k - v' k) :=
  (h.add (h'.const_mul (-1))).congr (Eventually.of_forall fun k => by ring) (Eventually.of_forall fun k => by ring)

theorem sum {κ : Type} (s : Finset κ) {u v : κ → ℕ → ℝ} (h : ∀ i ∈ s, Merge (u i) (v i)) : Merge (fun k => ∑ i ∈ s, u i k) (fun k => ∑ i ∈ s, v i k) := by
  classical
  induction s using Finset.induction_on with
  | empty => simpa using const 0
  | insert a s ha ih =>
    simp only [Finset.sum_insert ha]
    exact (h a (by simp)).add (ih fun i hi => h i (by simp [hi]))

/-- Exponential averages of merging signals merge. -/
theorem ewa {r : ℝ} (h0 : 0 < r) (h1 : r ≤ 1) {f g : ℕ → ℝ} (h : Merge f g) (hu : ∀ᶠ k in atTop, u (k + 1) = (1 - r) * u k + r * f k)
    (hv : ∀ᶠ k in atTop, v (k + 1) = (1 - r) * v k + r * g k) : Merge u v := by
  have q0 : 0 ≤ 1 - r := by linarith
  have q1 : 1 - r < 1 := by linarith
  obtain ⟨B, hB⟩ := h.bound
  have key : ∀ {u f : ℕ → ℝ}, (∀ᶠ k in atTop, u (k + 1) = (1 - r) * u k + r * f k) → (∀ᶠ k in atTop, |f k| ≤ B) → ∃ B : ℝ, ∀ᶠ k in atTop, |u k| ≤ B := by
    intro u f hu hf
    refine bound_of_contract (b := r * B) q0 q1 ?_
    filter_upwards [hu, hf] with k a b
    rw [a]
    refine (abs_add_le _ _).trans ?_
    rw [abs_mul, abs_mul, abs_of_nonneg q0, abs_of_pos h0]
    gcongr
  obtain ⟨A, hA⟩ := key hu (hB.mono fun _ h => h.1)
  obtain ⟨A', hA'⟩ := key hv (hB.mono fun _ h => h.2)
  refine ⟨⟨max A A', ?_⟩, ?_⟩
  · filter_upwards [hA, hA'] with k a b
    exact ⟨a.trans (le_max_left _ _), b.trans (le_max_right _ _)⟩
  · have hw : Tendsto (fun k => r * |f k - g k|) atTop (𝓝 0) := by simpa using h.lim.abs.const_mul r
    refine tendsto_of_contract q0 q1 hw ?_
    filter_upwards [hu, hv] with k a b
    rw [a, b]
    have e : (1 - r) * u k + r * f k - ((1 - r) * v k + r * g k) = (1 - r) * (u k - v k) + r * (f k - g k) := by ring
    rw [e]
    refine (abs_add_le _ _).trans ?_
    rw [abs_mul, abs_mul, abs_of_nonneg q0, abs_of_pos h0]

/-- A function continuous on a closed set, applied to merging tuples in that set. -/
theorem map {κ : Type} [Fintype κ] {A : Set (κ → ℝ)} (hA : IsClosed A) {g : (κ → ℝ) → ℝ} (hg : ContinuousOn g A) {u v : ℕ → κ → ℝ}
    (hu : ∀ᶠ k in atTop, u k ∈ A) (hv : ∀ᶠ k in atTop, v k ∈ A) (h : ∀ i, Merge (fun k => u k i) (fun k => v k i)) :
    Merge (fun k => g (u k)) (fun k => g (v k)) := by
  choose B hB using fun i => (h i).bound
  set R := ∑ i, |B i| with hR
  have hR0 : 0 ≤ R := Finset.sum_nonneg fun i _ => abs_nonneg _
  have hle : ∀ i, B i ≤ R := fun i => (le_abs_self _).trans (Finset.single_le_sum (f := fun i => |B i|) (fun i _ => abs_nonneg _) (Finset.mem_univ i))
  have hball : ∀ᶠ k in atTop, u k ∈ Metric.closedBall (0 : κ → ℝ) R ∧ v k ∈ Metric.closedBall (0 : κ → ℝ) R := by
    filter_upwards [eventually_all.2 hB] with k hk
    rw [mem_closedBall_zero_iff, mem_closedBall_zero_iff, pi_norm_le_iff_of_nonneg hR0, pi_norm_le_iff_of_nonneg hR0]
    exact ⟨fun i => (hk i).1.trans (hle i), fun i => (hk i).2.trans (hle i)⟩
  have hK : IsCompact (A ∩ Metric.closedBall (0 : κ → ℝ) R) := (isCompact_closedBall _ _).inter_left hA
  have hgK : ContinuousOn g (A ∩ Metric.closedBall (0 : κ → ℝ) R) := hg.mono Set.inter_subset_left
  have hmem : ∀ᶠ k in atTop, u k ∈ A ∩ Metric.closedBall (0 : κ → ℝ) R ∧ v k ∈ A ∩ Metric.closedBall (0 : κ → ℝ) R := by
    filter_upwards [hu, hv, hball] with k a b c
    exact ⟨⟨a, c.1⟩, b, c.2⟩
  constructor
  · obtain ⟨C, hC⟩ := hK.exists_bound_of_continuousOn hgK
    exact ⟨C, hmem.mono fun k hk => ⟨hC _ hk.1, hC _ hk.2⟩⟩
  · have huc := hK.uniformContinuousOn_of_continuous hgK
    have hd : Tendsto (fun k => dist (u k) (v k)) atTop (𝓝 0) := by
      have h1 : Tendsto (fun k => ∑ i, |u k i - v k i|) atTop (𝓝 0) := by
        have := tendsto_finset_sum Finset.univ fun i _ => (h i).lim.abs
        simpa using this
      refine squeeze_zero (fun k => dist_nonneg) (fun k => ?_) h1
      rw [dist_pi_le_iff (Finset.sum_nonneg fun i _ => abs_nonneg _)]
      intro i
      rw [Real.dist_eq]
      exact Finset.single_le_sum (f := fun i => |u k i - v k i|) (fun i _ => abs_nonneg _) (Finset.mem_univ i)
    rw [Metric.tendsto_nhds]
    intro e he
    obtain ⟨δ, hδ, hd'⟩ := Metric.uniformContinuousOn_iff.1 huc e he
    filter_upwards [hmem, hd.eventually (gt_mem_nhds hδ)] with k a b
    have := hd' _ a.1 _ a.2 b
    rw [Real.dist_eq] at this ⊢
    simpa using this

theorem map₁ {g : ℝ → ℝ} (hg : Continuous g) (h : Merge u v) : Merge (fun k => g (u k)) (fun k => g (v k)) := by
  have := map (κ := Unit) isClosed_univ (g := fun z => g (z ())) (hg.comp (continuous_apply ())).continuousOn (u := fun k _ => u k) (v := fun k _ => v k)
    (by simp) (by simp) (fun _ => h)
  exact this

theorem shift (h : Merge (fun k => u (k + 1)) (fun k => v (k + 1))) : Merge u v := by
  obtain ⟨B, hB⟩ := h.bound
  exact ⟨⟨B, by
    obtain ⟨N, hN⟩ := eventually_atTop.1 hB
    exact eventually_atTop.2 ⟨N + 1, fun k hk => by obtain ⟨j, rfl⟩ := Nat.exists_eq_add_of_le hk; have := hN (N + j) (by omega); rw [show N + 1 + j = N + j + 1 by omega]; exact this⟩⟩, (tendsto_add_atTop_iff_nat 1).1 h.lim⟩

theorem unshift (h : Merge u v) : Merge (fun k => u (k + 1)) (fun k => v (k + 1)) := by
  obtain ⟨B, hB⟩ := h.bound
  exact ⟨⟨B, by
    obtain ⟨N, hN⟩ := eventually_atTop.1 hB
    exact eventually_atTop.2 ⟨N, fun k hk => hN (k + 1) (by omega)⟩⟩, (tendsto_add_atTop_iff_nat 1).2 h.lim⟩

theorem bounded (h : Merge u v) : ∃ B, ∀ k, |u k| ≤ B ∧ |v k| ≤ B := by
  obtain ⟨B, hB⟩ := h.bound
  obtain ⟨N, hN⟩ := eventually_atTop.1 hB
  refine ⟨|B| + ∑ i ∈ Finset.range N, (|u i| + |v i|), fun k => ?_⟩
  have hs : 0 ≤ ∑ i ∈ Finset.range N, (|u i| + |v i|) := Finset.sum_nonneg fun i _ => by positivity
  rcases lt_or_ge k N with hk | hk
  · have := Finset.single_le_sum (f := fun i => |u i| + |v i|) (fun i _ => by positivity) (Finset.mem_range.2 hk)
    constructor <;> linarith [abs_nonneg B, abs_nonneg (u k), abs_nonneg (v k)]
  · have := hN k hk
    constructor <;> linarith [le_abs_self B, this.1, this.2]

/-- The running mean of merging signals, started with any sums and any counts. -/
theorem cesaro {f g : ℕ → ℝ} (h : Merge f g) (a b : ℝ) (m n : ℕ) :
    Merge (fun k => (a + ∑ i ∈ Finset.range k, f i) / ((m + k : ℕ) : ℝ)) (fun k => (b + ∑ i ∈ Finset.range k, g i) / ((n + k : ℕ) : ℝ)) := by
  obtain ⟨B, hB⟩ := h.bounded
  have hB0 : 0 ≤ B := (abs_nonneg _).trans (hB 0).1
  have hsum : ∀ {f : ℕ → ℝ}, (∀ k, |f k| ≤ B) → ∀ k, |∑ i ∈ Finset.range k, f i| ≤ k * B := by
    intro f hf k
    refine (Finset.abs_sum_le_sum_abs _ _).trans ((Finset.sum_le_sum fun i _ => hf i).trans ?_)
    simp
  have e : ∀ (a : ℝ) (m : ℕ) {f : ℕ → ℝ}, (∀ k, |f k| ≤ B) →
      Tendsto (fun k => (a + ∑ i ∈ Finset.range k, f i) / ((m + k : ℕ) : ℝ) - (∑ i ∈ Finset.range k, f i) / (k : ℝ)) atTop (𝓝 0) := by
    intro a m f hf
    have hz : Tendsto (fun k : ℕ => (|a| + m * B) / (k : ℝ)) atTop (𝓝 0) := tendsto_const_div_atTop_nhds_zero_nat _
    refine squeeze_zero_norm' ?_ hz
    filter_upwards [eventually_gt_atTop 0] with k hk
    have hk' : (0:ℝ) < k := by exact_mod_cast hk
    have hmk : (0:ℝ) < ((m + k : ℕ) : ℝ) := by exact_mod_cast (by omega : 0 < m + k)
    rw [Real.norm_eq_abs]
    have hs := hsum hf k
    set S := ∑ i ∈ Finset.range k, f i
    have e1 : (a + S) / ((m + k : ℕ) : ℝ) - S / (k : ℝ) = (a - m * (S / k)) / ((m + k : ℕ) : ℝ) := by
      push_cast at hmk ⊢
      field_simp; ring
    rw [e1, abs_div, abs_of_pos hmk]
    have h2 : |a - m * (S / k)| ≤ |a| + m * B := by
      refine (abs_sub _ _).trans ?_
      rw [abs_mul, abs_div, abs_of_pos hk', Nat.abs_cast]
      have : |S| / k ≤ B := by rw [div_le_iff₀ hk']; linarith
      gcongr
    have hnn : 0 ≤ |a| + m * B := by positivity
    refine div_le_div₀ hnn h2 hk' ?_
    push_cast; linarith [show (0:ℝ) ≤ m from Nat.cast_nonneg m]
  have hc : Tendsto (fun k : ℕ => (∑ i ∈ Finset.range k, f i) / (k : ℝ) - (∑ i ∈ Finset.range k, g i) / (k : ℝ)) atTop (𝓝 0) := by
    have := Filter.Tendsto.cesaro h.lim
    refine this.congr fun k => ?_
    rw [Finset.sum_sub_distrib]; ring
  have hlim : ∀ (a : ℝ) (m : ℕ) {f : ℕ → ℝ}, (∀ k, |f k| ≤ B) → ∀ᶠ k in atTop, |(a + ∑ i ∈ Finset.range k, f i) / ((m + k : ℕ) : ℝ)| ≤ B + 1 := by
    intro a m f hf
    filter_upwards [(e a m hf).eventually (Metric.ball_mem_nhds 0 one_pos), eventually_gt_atTop 0] with k hk hk0
    have hk' : (0:ℝ) < k := by exact_mod_cast hk0
    rw [Real.dist_eq, sub_zero] at hk
    have h3 : |(∑ i ∈ Finset.range k, f i) / (k : ℝ)| ≤ B := by
      rw [abs_div, abs_of_pos hk', div_le_iff₀ hk']; linarith [hsum hf k]
    have := abs_le.1 h3
    have h4 := abs_lt.1 hk
    rw [abs_le]; constructor <;> linarith
  refine ⟨⟨B + 1, ?_⟩, ?_⟩
  · filter_upwards [hlim a m fun k => (hB k).1, hlim b n fun k => (hB k).2] with k h1 h2 using ⟨h1, h2⟩
  · have := ((e a m fun k => (hB k).1).add hc).sub (e b n fun k => (hB k).2)
    simp only [add_zero, sub_zero] at this
    exact this.congr fun k => by ring

end Spec.Merge

end Precise
