import Verif.Lemmas.Thompson
import Verif.Props.ForgettingMore
import Verif.Props.Spiked

/-!
# C37, C114, continued: the geodesic is monotone in its ends, and GeodesicEwaCovariance forgets
-/

set_option linter.all false

open Matrix Filter Topology

namespace Precise

open Spec Obj
open Theory (abs_quad_le)

variable {ι : Type} [Fintype ι] [DecidableEq ι]

/-- C37: walking `g` of the way from `A` to `B` ends where walking `1 - g` of the way from `B` to `A` does. -/
theorem C37_reversal (L : Lapack) (A B : Matrix ι ι ℝ) (g : ℝ) : geodesicStep L A B g = geodesicStep L B A (1 - g) :=
  (isGeo_step L A B g).symm.unique (isGeo_step L B A (1 - g))

/-- C37: moving either (floored) end up in the Loewner order moves the point between them up. -/
theorem C37_monotone (L : Lapack) (A A' B B' : Matrix ι ι ℝ) (g : ℝ) (g0 : 0 ≤ g) (g1 : g ≤ 1)
    (hA : Loewner (makePosDef L A) (makePosDef L A')) (hB : Loewner (makePosDef L B) (makePosDef L B')) :
    Loewner (geodesicStep L A B g) (geodesicStep L A' B' g) := by
  have he : (0:ℝ) < 1 / 10 ^ 8 := by positivity
  have := (isGeo_step L A B g).mono (isGeo_step L A' B' g) g0 g1 one_pos one_pos (by rwa [one_smul]) (by rwa [one_smul])
    (pd_makePosDef L A he) (pd_makePosDef L B' he)
  simpa using this

/-- C37: if the start is known up to a factor `a` and the end up to a factor `b`, the point between them is known up to `a^(1-g) b^g`. -/
theorem C37_contraction (L : Lapack) (A A' B B' : Matrix ι ι ℝ) (g : ℝ) (g0 : 0 ≤ g) (g1 : g ≤ 1) (a b : ℝ) (ha : 0 < a) (hb : 0 < b)
    (hA : Loewner (makePosDef L A) (a • makePosDef L A')) (hB : Loewner (makePosDef L B) (b • makePosDef L B')) :
    Loewner (geodesicStep L A B g) ((a ^ (1 - g) * b ^ g) • geodesicStep L A' B' g) := by
  have he : (0:ℝ) < 1 / 10 ^ 8 := by positivity
  exact (isGeo_step L A B g).mono (isGeo_step L A' B' g) g0 g1 ha hb hA hB (pd_makePosDef L A he) (pd_makePosDef L B' he)

/-- Two matrices whose eigenvalues are at least `e` are within the factor `1 + η/e` of each other, `η` the sum of the differences of their entries. -/
theorem loewner_of_close {A B : Matrix ι ι ℝ} {e : ℝ} (he : 0 < e) (hB : MinEigGE B e) : Loewner A ((1 + (∑ i, ∑ j, |(A - B) i j|) / e) • B) := by
  intro x
  have h1 := (abs_le.1 (abs_quad_le (A - B) x)).2
  rw [quad_sub] at h1
  rw [quad_smul]
  have h2 := hB x
  have hT0 : 0 ≤ ∑ i, ∑ j, |(A - B) i j| := Finset.sum_nonneg fun i _ => Finset.sum_nonneg fun j _ => abs_nonneg _
  have h3 : (∑ i, ∑ j, |(A - B) i j|) * normSq x ≤ (∑ i, ∑ j, |(A - B) i j|) / e * quad B x := by
    rw [div_mul_eq_mul_div, le_div_iff₀ he, mul_assoc, mul_comm (normSq x)]
    exact mul_le_mul_of_nonneg_left h2 hT0
  linarith

theorem one_add_pos {A : Matrix ι ι ℝ} {e : ℝ} (he : 0 < e) : 0 < 1 + (∑ i, ∑ j, |A i j|) / e := by
  have : 0 ≤ ∑ i, ∑ j, |A i j| := Finset.sum_nonneg fun i _ => Finset.sum_nonneg fun j _ => abs_nonneg _
  positivity

/-- C37: any two (floored) matrices are within some factor of each other, so `C37_contraction` applies to every pair of walks. -/
theorem C37_contraction_covers (L : Lapack) (A A' : Matrix ι ι ℝ) : ∃ a : ℝ, 0 < a ∧ Loewner (makePosDef L A) (a • makePosDef L A') := by
  have he : (0:ℝ) < 1 / 10 ^ 8 := by positivity
  exact ⟨_, one_add_pos he, loewner_of_close he (minEig_makePosDef L A' _)⟩

/-- The geodesic lies below the line. -/
theorem IsGeo.below {S E G : Matrix ι ι ℝ} {g : ℝ} (h : IsGeo S E g G) (g0 : 0 ≤ g) (g1 : g ≤ 1) (x : ι → ℝ) :
    quad G x ≤ (1 - g) * quad S x + g * quad E x := by
  obtain ⟨Q, l, hQ, hl, e1, e2, e3⟩ := h
  have e1' : S = Q * diagonal (fun _ => (1:ℝ)) * Qᵀ := by rw [diagonal_one, Matrix.mul_one, e1]
  rw [e1', e2, e3, quad_congr, quad_congr, quad_congr, quad_diagonal, quad_diagonal, quad_diagonal, Finset.mul_sum, Finset.mul_sum, ← Finset.sum_add_distrib]
  refine Finset.sum_le_sum fun i _ => ?_
  have := Real.geom_mean_le_arith_mean2_weighted (show 0 ≤ 1 - g by linarith) g0 zero_le_one (hl i).le (by ring)
  rw [Real.one_rpow, one_mul] at this
  have := mul_le_mul_of_nonneg_right this (mul_self_nonneg ((Qᵀ *ᵥ x) i))
  linarith

theorem entry_polar {a : Matrix ι ι ℝ} (h : Symm a) (i j : ι) :
    a i j = 1 / 2 * (quad a (Pi.single i 1 + Pi.single j 1) - quad a (Pi.single i 1) - quad a (Pi.single j 1)) := by
  have := quad_add_vec h (Pi.single i 1) (Pi.single j 1) 1
  rw [one_smul] at this
  rw [this]
  have e : (Pi.single i 1 : ι → ℝ) ⬝ᵥ a *ᵥ Pi.single j 1 = a i j := by simp [single_dotProduct]
  rw [e]; ring

theorem merge_quad {B B' : ℕ → Matrix ι ι ℝ} (h : ∀ i j, Merge (fun k => B k i j) (fun k => B' k i j)) (x : ι → ℝ) :
    Merge (fun k => quad (B k) x) (fun k => quad (B' k) x) := by
  have : Merge (fun k => ∑ i, ∑ j, x i * x j * B k i j) (fun k => ∑ i, ∑ j, x i * x j * B' k i j) :=
    Merge.sum _ fun i _ => Merge.sum _ fun j _ => (h i j).const_mul _
  refine this.congr ?_ ?_ <;> refine Eventually.of_forall fun k => ?_ <;> rw [quad_expand] <;>
  exact Finset.sum_congr rfl fun i _ => Finset.sum_congr rfl fun j _ => by ring

/-- Two walks along geodesics towards targets that come together come together. -/
theorem merge_walk {r e : ℝ} (h0 : 0 < r) (h1 : r ≤ 1) (he : 0 < e) {A A' B B' : ℕ → Matrix ι ι ℝ}
    (pA : ∀ᶠ k in atTop, Symm (A k) ∧ MinEigGE (A k) e) (pA' : ∀ᶠ k in atTop, Symm (A' k) ∧ MinEigGE (A' k) e)
    (pB : ∀ k, Symm (B k) ∧ MinEigGE (B k) e) (pB' : ∀ k, Symm (B' k) ∧ MinEigGE (B' k) e)
    (hA : ∀ᶠ k in atTop, IsGeo (A k) (B k) r (A (k + 1))) (hA' : ∀ᶠ k in atTop, IsGeo (A' k) (B' k) r (A' (k + 1)))
    (hB : ∀ i j, Merge (fun k => B k i j) (fun k => B' k i j)) (i j : ι) : Merge (fun k => A k i j) (fun k => A' k i j) := by
  have nn : ∀ x : ι → ℝ, 0 ≤ normSq x := fun x => Finset.sum_nonneg fun i _ => mul_self_nonneg _
  have hpos : ∀ {M : Matrix ι ι ℝ} (x : ι → ℝ), MinEigGE M e → 0 ≤ quad M x := fun x h => (mul_nonneg he.le (nn x)).trans (h x)
  -- the walks stay bounded
  have bd : ∀ {A B : ℕ → Matrix ι ι ℝ} (x : ι → ℝ), (∀ᶠ k in atTop, Symm (A k) ∧ MinEigGE (A k) e) → (∀ᶠ k in atTop, IsGeo (A k) (B k) r (A (k + 1))) →
      (∃ b, ∀ k, |quad (B k) x| ≤ b) → ∃ b, ∀ᶠ k in atTop, |quad (A k) x| ≤ b := by
    rintro A B x pA hA ⟨b, hb⟩
    refine bound_of_contract (q := 1 - r) (b := r * b) (by linarith) (by linarith) ?_
    filter_upwards [pA, (tendsto_add_atTop_nat 1).eventually pA, hA] with k h2 h3 h4
    rw [abs_of_nonneg (hpos x h2.2), abs_of_nonneg (hpos x h3.2)]
    have := h4.below h0.le h1 x
    have := mul_le_mul_of_nonneg_left ((le_abs_self _).trans (hb k)) h0.le
    linarith
  -- and come within any factor of each other
  set η := fun k => ∑ i, ∑ j, |(B k - B' k) i j| with hη
  have hη0 : Tendsto η atTop (𝓝 0) := by
    have : Tendsto η atTop (𝓝 (∑ i : ι, ∑ j : ι, |(0:ℝ)|)) :=
      tendsto_finsetSum _ fun i _ => tendsto_finsetSum _ fun j _ => (hB i j).lim.abs
    simpa using this
  have hη' : ∀ k, ∑ i, ∑ j, |(B' k - B k) i j| = η k := fun k =>
    Finset.sum_congr rfl fun i _ => Finset.sum_congr rfl fun j _ => by rw [Matrix.sub_apply, Matrix.sub_apply, abs_sub_comm]
  have hηp : ∀ k, 0 < 1 + η k / e := fun k => one_add_pos he
  set w := fun k => Real.log (1 + η k / e) with hw
  have hw0 : Tendsto w atTop (𝓝 0) := by
    have e1 : Tendsto (fun k => 1 + η k / e) atTop (𝓝 1) := by
      have := (hη0.div_const e).const_add 1
      simpa using this
    have := (Real.continuousAt_log one_ne_zero).tendsto.comp e1
    rwa [Real.log_one] at this
  have hwe : ∀ k, Real.exp (w k) = 1 + η k / e := fun k => Real.exp_log (hηp k)
  obtain ⟨N, hN⟩ := eventually_atTop.1 (pA.and (pA'.and (hA.and hA')))
  set T := max (1 + (∑ i, ∑ j, |(A N - A' N) i j|) / e) (1 + (∑ i, ∑ j, |(A' N - A N) i j|) / e) with hT
  have hTp : 0 < T := lt_max_of_lt_left (one_add_pos he)
  let u : ℕ → ℝ := fun j => Nat.rec (Real.log T) (fun j v => (1 - r) * v + r * w (N + j)) j
  have us : ∀ j, u (j + 1) = (1 - r) * u j + r * w (N + j) := fun j => rfl
  have hu0 : Tendsto u atTop (𝓝 0) := by
    have hwN : Tendsto (fun j => r * |w (N + j)|) atTop (𝓝 0) := by
      have : Tendsto (fun j => w (j + N)) atTop (𝓝 0) := hw0.comp (tendsto_add_atTop_nat N)
      have := (this.abs).const_mul r
      simpa [add_comm] using this
    refine tendsto_of_contract (q := 1 - r) (by linarith) (by linarith) hwN (Eventually.of_forall fun j => ?_)
    rw [us]
    calc |(1 - r) * u j + r * w (N + j)| ≤ |(1 - r) * u j| + |r * w (N + j)| := abs_add_le _ _
      _ = _ := by rw [abs_mul, abs_mul, abs_of_pos h0, abs_of_nonneg (show 0 ≤ 1 - r by linarith)]
  have near : ∀ j, Loewner (A (N + j)) (Real.exp (u j) • A' (N + j)) ∧ Loewner (A' (N + j)) (Real.exp (u j) • A (N + j)) := by
    intro j
    induction j with
    | zero =>
      obtain ⟨p1, p2, -⟩ := hN N le_rfl
      have hu : Real.exp (u 0) = T := Real.exp_log hTp
      rw [hu]
      constructor
      · intro x
        refine (loewner_of_close he p2.2 x).trans ?_
        rw [quad_smul, quad_smul]
        exact mul_le_mul_of_nonneg_right (le_max_left _ _) (hpos x p2.2)
      · intro x
        refine (loewner_of_close he p1.2 x).trans ?_
        rw [quad_smul, quad_smul]
        exact mul_le_mul_of_nonneg_right (le_max_right _ _) (hpos x p1.2)
    | succ j ih =>
      obtain ⟨p1, p2, g1, g2⟩ := hN (N + j) (by omega)
      have efac : Real.exp (u j) ^ (1 - r) * (1 + η (N + j) / e) ^ r = Real.exp (u (j + 1)) := by
        rw [us, ← hwe, ← Real.exp_mul, ← Real.exp_mul, ← Real.exp_add]; congr 1; ring
      rw [← efac]
      constructor
      · exact g1.mono g2 h0.le h1 (Real.exp_pos _) (hηp _) ih.1 (loewner_of_close he (pB' _).2) (p1.2.pd p1.1 he) ((pB' _).2.pd (pB' _).1 he)
      · refine g2.mono g1 h0.le h1 (Real.exp_pos _) (hηp _) ih.2 ?_ (p2.2.pd p2.1 he) ((pB _).2.pd (pB _).1 he)
        rw [← hη']; exact loewner_of_close he (pB _).2
  have key : ∀ x : ι → ℝ, Merge (fun k => quad (A k) x) (fun k => quad (A' k) x) := by
    intro x
    obtain ⟨b0, hb0⟩ := (merge_quad hB x).bounded
    obtain ⟨b, hb⟩ := bd x pA hA ⟨b0, fun k => (hb0 k).1⟩
    obtain ⟨b', hb'⟩ := bd x pA' hA' ⟨b0, fun k => (hb0 k).2⟩
    refine ⟨⟨max b b', (hb.and hb').mono fun k h => ⟨h.1.trans (le_max_left _ _), h.2.trans (le_max_right _ _)⟩⟩, ?_⟩
    have hlim : Tendsto (fun k => |Real.exp (u (k - N)) - 1| * (b + b')) atTop (𝓝 0) := by
      have h2 : Tendsto (fun k => u (k - N)) atTop (𝓝 0) := hu0.comp (tendsto_sub_atTop_nat N)
      have h3 : Tendsto (fun k => Real.exp (u (k - N))) atTop (𝓝 1) := by
        have := (Real.continuous_exp.tendsto 0).comp h2
        rwa [Real.exp_zero] at this
      have := ((h3.sub_const 1).abs).mul_const (b + b')
      simpa using this
    refine squeeze_zero_norm' ?_ hlim
    filter_upwards [hb, hb', eventually_ge_atTop N] with k k1 k2 k3
    obtain ⟨n1, n2⟩ := near (k - N)
    rw [Nat.add_sub_cancel' k3] at n1 n2
    have n1 := n1 x
    have n2 := n2 x
    rw [quad_smul] at n1 n2
    obtain ⟨p1, p2, -⟩ := hN k k3
    have q1 := hpos x p1.2
    have q2 := hpos x p2.2
    rw [abs_of_nonneg q1] at k1
    rw [abs_of_nonneg q2] at k2
    generalize Real.exp (u (k - N)) = E at *
    rw [Real.norm_eq_abs]
    have hE := le_abs_self (E - 1)
    have a1 : (E - 1) * quad (A' k) x ≤ |E - 1| * b' := mul_le_mul hE k2 q2 (abs_nonneg _)
    have a2 : (E - 1) * quad (A k) x ≤ |E - 1| * b := mul_le_mul hE k1 q1 (abs_nonneg _)
    have a3 : 0 ≤ |E - 1| * b := mul_nonneg (abs_nonneg _) (q1.trans k1)
    have a4 : 0 ≤ |E - 1| * b' := mul_nonneg (abs_nonneg _) (q2.trans k2)
    rw [abs_le]
    constructor <;> linarith
  refine (((key (Pi.single i 1 + Pi.single j 1)).sub (key (Pi.single i 1))).sub (key (Pi.single j 1))).const_mul (1 / 2) |>.congr ?_ ?_
  · exact pA.mono fun k h => entry_polar h.1 i j
  · exact pA'.mono fun k h => entry_polar h.1 i j

/-- C114: GeodesicEwaCovariance. -/
theorem C114_geodesic (L : Lapack) (p : RParam ℝ) (h0 : 0 < p.r) (h1 : p.r ≤ 1) : Forgets (geodesicCls L ι) p := by
  refine forgets_of_fold (geodesic_lawful L ι) p fun a b x y h => ?_
  have he : (0:ℝ) < 1 / 10 ^ 8 := by positivity
  have hmean : ∀ zs : List (ι → ℝ), (geoFold L p zs).mean = (ewaFold p.r zs).mean := fun zs => geodesicFold_mean L _ _ zs rfl rfl rfl rfl
  have M : ∀ i, Merge (fun k => (geoFold L p (a ++ firstRows k x)).mean i) (fun k => (geoFold L p (b ++ firstRows k y)).mean i) := by
    intro i; simp only [hmean]; exact ewa_merge_mean h0 h1 h a b i
  refine ⟨M, ?_⟩
  set X : ℕ → Matrix ι ι ℝ := fun k => outer (fun i => x k i - (geoFold L p (a ++ firstRows k x)).mean i) (fun i => x k i - (geoFold L p (a ++ firstRows k x)).mean i) with hX
  set Y : ℕ → Matrix ι ι ℝ := fun k => outer (fun i => y k i - (geoFold L p (b ++ firstRows k y)).mean i) (fun i => y k i - (geoFold L p (b ++ firstRows k y)).mean i) with hY
  have mXY : ∀ i j, Merge (fun k => X k i j) (fun k => Y k i j) := fun i j => ((h i).sub (M i)).mul ((h j).sub (M j))
  have mB : ∀ i j, Merge (fun k => makePosDef L (X k) (1 / 10 ^ 8) i j) (fun k => makePosDef L (Y k) (1 / 10 ^ 8) i j) := fun i j =>
    Merge.matrix (A := Set.univ) isClosed_univ (fun z => makePosDef L z.1 (1 / 10 ^ 8) i j) (by
      have := continuous_makePosDef L (T := ↥(Set.univ : Set (ι → ι → ℝ)) × ℝ) (a := fun t => Matrix.of t.1.1) (continuous_matrix fun i j =>
          (show Continuous fun t : ↥(Set.univ : Set (ι → ι → ℝ)) × ℝ => t.1.1 i j from
            (continuous_apply j).comp ((continuous_apply i).comp (continuous_subtype_val.comp continuous_fst)))) (1 / 10 ^ 8)
      exact this.matrix_elem i j) (fun _ => trivial) (fun _ => trivial) mXY (Merge.const 0)
  have post : ∀ (a : List (ι → ℝ)) (x : ℕ → ι → ℝ), ∀ᶠ k in atTop, (geoFold L p (a ++ firstRows (k + 1) x)).cov =
      geodesicStep L (geoFold L p (a ++ firstRows k x)).cov
        (outer (fun i => x k i - (geoFold L p (a ++ firstRows k x)).mean i) (fun i => x k i - (geoFold L p (a ++ firstRows k x)).mean i)) p.r := by
    intro a x
    filter_upwards [eventually_ge_atTop (ewaBurnN p.r)] with k hk
    rw [firstRows_succ, ← List.append_assoc, geoFold_snoc]
    obtain ⟨e1, e2, e3⟩ := geoFold_inv L p (a ++ firstRows k x)
    unfold geodesicUpdate
    rw [if_neg (by rw [e1, e3, List.length_append, firstRows_length]; omega), e2]
  have floor : ∀ (a : List (ι → ℝ)) (x : ℕ → ι → ℝ), ∀ᶠ k in atTop, Symm (geoFold L p (a ++ firstRows k x)).cov ∧ MinEigGE (geoFold L p (a ++ firstRows k x)).cov (1 / 10 ^ 8) := by
    intro a x
    obtain ⟨N, hN⟩ := eventually_atTop.1 (post a x)
    refine eventually_atTop.2 ⟨N + 1, fun k hk => ⟨geoFold_symm L p _, ?_⟩⟩
    obtain ⟨k, rfl⟩ : ∃ j, k = j + 1 := ⟨k - 1, by omega⟩
    rw [hN k (by omega)]
    exact C37_eig_lower L _ _ _ h0.le h1 _ he.le (minEig_makePosDef L _ _) (minEig_makePosDef L _ _)
  have walk : ∀ (a : List (ι → ℝ)) (x : ℕ → ι → ℝ), ∀ᶠ k in atTop, IsGeo (geoFold L p (a ++ firstRows k x)).cov
      (makePosDef L (outer (fun i => x k i - (geoFold L p (a ++ firstRows k x)).mean i) (fun i => x k i - (geoFold L p (a ++ firstRows k x)).mean i))) p.r
      (geoFold L p (a ++ firstRows (k + 1) x)).cov := by
    intro a x
    filter_upwards [post a x, floor a x] with k k1 k2
    rw [k1]
    have := isGeo_step L (geoFold L p (a ++ firstRows k x)).cov
      (outer (fun i => x k i - (geoFold L p (a ++ firstRows k x)).mean i) (fun i => x k i - (geoFold L p (a ++ firstRows k x)).mean i)) p.r
    rwa [(C50_identity L _ _ k2.2).2 k2.1] at this
  exact fun i j => merge_walk h0 h1 he (floor a x) (floor b y) (fun k => ⟨symm_makePosDef L _ _, minEig_makePosDef L _ _⟩)
    (fun k => ⟨symm_makePosDef L _ _, minEig_makePosDef L _ _⟩) (walk a x) (walk b y) mB i j

/-- two walks that start from different matrices, towards the same rows -/
example (L : Lapack) (x : ℕ → Fin 2 → ℝ) (hx : ∀ k i, |x k i| ≤ 1) (ε : ℝ) (hε : 0 < ε) :=
  C114_same_stream (geodesic_lawful L (Fin 2)) ⟨1 / 20, false⟩ (C114_geodesic L ⟨1 / 20, false⟩ (by norm_num) (by norm_num)) x 1 hx
    [.partialFit (.row ![100, 3])] [.partialFit (.row ![-7, 0]), .partialFit (.row ![1, 1])] ε hε

/-- ends that are ordered: the identity and twice the identity -/
example (L : Lapack) : Loewner (geodesicStep L (1 : Matrix (Fin 2) (Fin 2) ℝ) 1 (1 / 2)) (geodesicStep L ((2:ℝ) • 1) 1 (1 / 2)) := by
  have i : ∀ c : ℝ, 1 ≤ c → makePosDef L (c • (1 : Matrix (Fin 2) (Fin 2) ℝ)) = c • 1 := by
    intro c hc
    refine (C50_identity L _ _ fun x => ?_).2 (symm_one.smul c)
    rw [quad_smul, quad_one]
    have : 0 ≤ normSq x := Finset.sum_nonneg fun i _ => mul_self_nonneg _
    exact mul_le_mul_of_nonneg_right (by linarith [show (1:ℝ) / 10 ^ 8 ≤ 1 by norm_num]) this
  refine C37_monotone L _ _ _ _ _ (by norm_num) (by norm_num) ?_ fun x => le_rfl
  have i1 := i 1 le_rfl
  rw [one_smul] at i1
  rw [i 2 (by norm_num), i1]
  intro x
  rw [quad_smul, quad_one]
  have : 0 ≤ normSq x := Finset.sum_nonneg fun i _ => mul_self_nonneg _
  linarith

end Precise
