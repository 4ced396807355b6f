import Verif.Props.Blocks
import Verif.Props.Shrinkage
import Verif.Props.Ewa
import Verif.Props.Stability
import Verif.Props.Robust
import Verif.Props.Factor

/-!
# C108: what the estimators remember and what they forget

SchurCovariance (linear), BlockCovariance, ShrunkCovariance (identity target) never amplify a difference between two histories;
so they forget and are stable like EwaCovariance. DiagonalCovariance forgets. AdaptiveEwaCovariance and FactorCovariance have
memory effects their documentation excludes.
-/

set_option linter.all false

open Matrix

namespace Precise

open Spec Obj

variable {ι : Type} [Fintype ι] [DecidableEq ι]

/-! ## The eigenvalue floor is 1-Lipschitz -/

/-- Frobenius inner product. -/
def frobIp (a b : Matrix ι ι ℝ) : ℝ := ∑ i, ∑ j, a i j * b i j

theorem frobSq_add_smul (x y : Matrix ι ι ℝ) (t : ℝ) : frobSq (x + t • y) = frobSq x + 2 * t * frobIp x y + t ^ 2 * frobSq y := by
  simp only [frobSq, frobIp, Matrix.add_apply, Matrix.smul_apply, smul_eq_mul, Finset.mul_sum, ← Finset.sum_add_distrib]
  exact Finset.sum_congr rfl fun i _ => Finset.sum_congr rfl fun j _ => by ring

theorem frobSq_nonneg (x : Matrix ι ι ℝ) : 0 ≤ frobSq x :=
  Finset.sum_nonneg fun i _ => Finset.sum_nonneg fun j _ => mul_self_nonneg _

theorem minEig_mix {a b : Matrix ι ι ℝ} {c t : ℝ} (ha : MinEigGE a c) (hb : MinEigGE b c) (h0 : 0 ≤ t) (h1 : t ≤ 1) :
    MinEigGE (a + t • (b - a)) c := by
  intro x
  have e : quad (a + t • (b - a)) x = (1 - t) * quad a x + t * quad b x := by
    simp only [quad, Matrix.add_mulVec, Matrix.smul_mulVec, Matrix.sub_mulVec, dotProduct_add, dotProduct_smul, dotProduct_sub, smul_eq_mul]
    ring
  rw [e]
  have := ha x
  have := hb x
  nlinarith

/-- Variational inequality of a nearest point. -/
theorem proj_vi {a P z : Matrix ι ι ℝ} {c : ℝ} (hP : MinEigGE P c) (hn : ∀ x, MinEigGE x c → frobSq (P - a) ≤ frobSq (x - a))
    (hz : MinEigGE z c) : 0 ≤ frobIp (P - a) (z - P) := by
  by_contra hneg
  push Not at hneg
  set q := frobSq (z - P)
  have hq : 0 ≤ q := frobSq_nonneg _
  set g := frobIp (P - a) (z - P)
  set t := min 1 (-g / (q + 1)) with ht
  have ht0 : 0 < t := lt_min one_pos (div_pos (by linarith) (by linarith))
  have ht1 : t ≤ 1 := min_le_left _ _
  have htq : t * (q + 1) ≤ -g := by
    have := min_le_right (1:ℝ) (-g / (q + 1))
    rw [← ht, le_div_iff₀ (by linarith)] at this
    exact this
  have h := hn _ (minEig_mix hP hz ht0.le ht1)
  rw [show P + t • (z - P) - a = (P - a) + t • (z - P) by abel, frobSq_add_smul] at h
  have : 0 ≤ t * (2 * g + t * q) := by nlinarith
  have : 0 ≤ 2 * g + t * q := by
    by_contra hh; push Not at hh; nlinarith
  nlinarith

theorem proj_lip {a b P Q : Matrix ι ι ℝ} {c : ℝ} (hP : MinEigGE P c) (hQ : MinEigGE Q c)
    (hn : ∀ x, MinEigGE x c → frobSq (P - a) ≤ frobSq (x - a)) (hm : ∀ x, MinEigGE x c → frobSq (Q - b) ≤ frobSq (x - b)) :
    frobSq (P - Q) ≤ frobSq (a - b) := by
  have h1 := proj_vi hP hn hQ
  have h2 := proj_vi hQ hm hP
  have e : frobSq (a - b) = frobSq (P - Q) + 2 * (frobIp (P - a) (Q - P) + frobIp (Q - b) (P - Q)) + frobSq ((a - b) - (P - Q)) := by
    simp only [frobSq, frobIp, Matrix.sub_apply, Finset.mul_sum, ← Finset.sum_add_distrib]
    refine Finset.sum_congr rfl fun i _ => Finset.sum_congr rfl fun j _ => ?_
    ring
  have := frobSq_nonneg ((a - b) - (P - Q))
  linarith

/-- The floor on the eigenvalues does not increase Frobenius distances. -/
theorem makePosDef_lip (L : Lapack) {a b : Matrix ι ι ℝ} (ha : Symm a) (hb : Symm b) (eps : ℝ) :
    frobSq (makePosDef L a eps - makePosDef L b eps) ≤ frobSq (a - b) :=
  proj_lip (minEig_makePosDef L a eps) (minEig_makePosDef L b eps) (makePosDef_nearest L ha eps) (makePosDef_nearest L hb eps)

theorem frobSq_mono {a b : Matrix ι ι ℝ} (h : ∀ i j, |a i j| ≤ |b i j|) : frobSq a ≤ frobSq b := by
  unfold frobSq
  refine Finset.sum_le_sum fun i _ => Finset.sum_le_sum fun j _ => ?_
  rw [← abs_mul_abs_self, ← abs_mul_abs_self (b i j)]
  exact mul_self_le_mul_self (abs_nonneg _) (h i j)

theorem entry_le_of_frobSq {a : Matrix ι ι ℝ} {D : ℝ} (hD : 0 ≤ D) (h : frobSq a ≤ ((Fintype.card ι : ℝ) * D) ^ 2) (i j : ι) :
    |a i j| ≤ (Fintype.card ι : ℝ) * D := by
  apply abs_le_of_sq_le_sq _ (by positivity)
  refine le_trans ?_ h
  rw [sq]
  refine le_trans ?_ (Finset.single_le_sum (f := fun i => ∑ j, a i j * a i j) (fun i _ => Finset.sum_nonneg fun j _ => mul_self_nonneg _) (Finset.mem_univ i))
  exact Finset.single_le_sum (f := fun j => a i j * a i j) (fun j _ => mul_self_nonneg _) (Finset.mem_univ j)

theorem frobSq_le_of_entry {a : Matrix ι ι ℝ} {D : ℝ} (h : ∀ i j, |a i j| ≤ D) : frobSq a ≤ ((Fintype.card ι : ℝ) * D) ^ 2 := by
  unfold frobSq
  calc ∑ i, ∑ j, a i j * a i j ≤ ∑ i : ι, ∑ j : ι, D ^ 2 := by
        refine Finset.sum_le_sum fun i _ => Finset.sum_le_sum fun j _ => ?_
        rw [← abs_mul_abs_self, sq]
        exact mul_self_le_mul_self (abs_nonneg _) (h i j)
    _ = _ := by simp; ring

/-! ## Non-expansiveness -/

/-- C108: SchurCovariance with linear interpolation and `|gamma| ≤ 1`: the estimates of two histories are no further apart (Frobenius)
than the EWA covariances of the same two histories. -/
theorem C108_schur_nonexpansive {p : ℕ} (L : Lapack) (pr : SchurParam) (hi : pr.interpolation ≠ "geodesic") (hg : |pr.gamma| ≤ 1)
    (calls calls' : List (Call (Fin p) ℝ)) (c c' e e' : Matrix (Fin p) (Fin p) ℝ)
    (hc : ((new (schurCls L p) pr).run calls).covariance = .ok c) (hc' : ((new (schurCls L p) pr).run calls').covariance = .ok c')
    (he : ((new (ewaCls (Fin p) ℝ) ⟨pr.r, pr.diff⟩).run calls).covariance = .ok e)
    (he' : ((new (ewaCls (Fin p) ℝ) ⟨pr.r, pr.diff⟩).run calls').covariance = .ok e') :
    ∑ i, ∑ j, (c i j - c' i j) ^ 2 ≤ ∑ i, ∑ j, (e i j - e' i j) ^ 2 := by
  obtain ⟨_, rfl⟩ := schur_attrs_inv L pr calls c hc
  obtain ⟨_, rfl⟩ := schur_attrs_inv L pr calls' c' hc'
  obtain ⟨_, rfl⟩ := ewa_attrs_inv _ calls e he
  obtain ⟨_, rfl⟩ := ewa_attrs_inv _ calls' e' he'
  rw [toSymmetric_of_symm (schurCov_symm L _ _), toSymmetric_of_symm (schurCov_symm L _ _)]
  have key : ∀ s t : EwaState (Fin p) ℝ, Symm s.cov → Symm t.cov → frobSq (schurCov L pr s - schurCov L pr t) ≤ frobSq (s.cov - t.cov) := by
    intro s t hs ht
    unfold schurCov
    simp only [hi, if_false]
    refine (makePosDef_lip L (symm_toSymmetric _) (symm_toSymmetric _) _).trans (frobSq_mono fun i j => ?_)
    have hd : ∀ u : EwaState (Fin p) ℝ, Symm u.cov → ∀ i j, toSymmetric (dampCross (fun i : Fin p => blockId p (schurNb pr.nBlocks p) i) pr.gamma u.cov) i j
        = if blockId p (schurNb pr.nBlocks p) i ≠ blockId p (schurNb pr.nBlocks p) j then u.cov i j * pr.gamma else u.cov i j := by
      intro u hu i j
      rw [toSymmetric_of_symm]
      · rfl
      · intro i j
        simp only [dampCross, of_apply, ne_comm (a := blockId p (schurNb pr.nBlocks p) (i : ℕ)), hu i j]
    rw [Matrix.sub_apply, Matrix.sub_apply, hd s hs, hd t ht]
    split
    · rw [← sub_mul, abs_mul]
      exact mul_le_of_le_one_right (abs_nonneg _) hg
    · exact le_rfl
  have := key (ewaFold pr.r (used pr.diff calls)) (ewaFold pr.r (used pr.diff calls')) (symm_ewaFold _ _) (symm_ewaFold _ _)
  simpa only [frobSq, Matrix.sub_apply, ← sq] using this

/-- C108: BlockCovariance likewise. -/
theorem C108_block_nonexpansive {p : ℕ} (L : Lapack) (pr : BlockParam) (hn : 1 ≤ pr.nBlocks) (hp : 1 ≤ p)
    (calls calls' : List (Call (Fin p) ℝ)) (c c' e e' : Matrix (Fin p) (Fin p) ℝ)
    (hc : ((new (blockCls L p) pr).run calls).covariance = .ok c) (hc' : ((new (blockCls L p) pr).run calls').covariance = .ok c')
    (he : ((new (ewaCls (Fin p) ℝ) ⟨pr.r, pr.diff⟩).run calls).covariance = .ok e)
    (he' : ((new (ewaCls (Fin p) ℝ) ⟨pr.r, pr.diff⟩).run calls').covariance = .ok e') :
    ∑ i, ∑ j, (c i j - c' i j) ^ 2 ≤ ∑ i, ∑ j, (e i j - e' i j) ^ 2 := by
  rw [(C26_is_schur L pr hn hp "linear" calls).1] at hc
  rw [(C26_is_schur L pr hn hp "linear" calls').1] at hc'
  exact C108_schur_nonexpansive L ⟨pr.r, pr.nBlocks, 0, "linear", pr.diff⟩ (by show ("linear" : String) ≠ "geodesic"; decide) (by simp)
    calls calls' c c' e e' hc hc' he he'

theorem frobSq_shrink [Nonempty ι] (d : Matrix ι ι ℝ) (g : ℝ) (h0 : 0 ≤ g) (h1 : g ≤ 1) :
    frobSq ((1 - g) • d + (g * (d.trace / (Fintype.card ι : ℝ))) • (1 : Matrix ι ι ℝ)) ≤ frobSq d := by
  have hp : (0:ℝ) < Fintype.card ι := by exact_mod_cast Fintype.card_pos
  have h1q : frobSq (1 : Matrix ι ι ℝ) = Fintype.card ι := by
    simp [frobSq, Matrix.one_apply]
  have h1i : frobIp d 1 = d.trace := by
    simp [frobIp, Matrix.one_apply, Matrix.trace]
  have hsm : frobSq ((1 - g) • d) = (1 - g) ^ 2 * frobSq d := by
    simp only [frobSq, Matrix.smul_apply, smul_eq_mul, Finset.mul_sum]
    exact Finset.sum_congr rfl fun i _ => Finset.sum_congr rfl fun j _ => by ring
  have hip : frobIp ((1 - g) • d) 1 = (1 - g) * d.trace := by
    rw [← h1i]
    simp only [frobIp, Matrix.smul_apply, smul_eq_mul, Finset.mul_sum]
    exact Finset.sum_congr rfl fun i _ => Finset.sum_congr rfl fun j _ => by ring
  have cs : d.trace ^ 2 ≤ (Fintype.card ι : ℝ) * frobSq d := by
    have h := frobSq_nonneg (d + (-(d.trace / (Fintype.card ι : ℝ))) • (1 : Matrix ι ι ℝ))
    rw [frobSq_add_smul, h1q, h1i] at h
    have : frobSq d + 2 * -(d.trace / (Fintype.card ι : ℝ)) * d.trace + (-(d.trace / (Fintype.card ι : ℝ))) ^ 2 * (Fintype.card ι : ℝ)
        = frobSq d - d.trace ^ 2 / (Fintype.card ι : ℝ) := by field_simp; ring
    rw [this, sub_nonneg, div_le_iff₀ hp] at h
    linarith
  rw [frobSq_add_smul, hsm, hip, h1q]
  have : (1 - g) ^ 2 * frobSq d + 2 * (g * (d.trace / (Fintype.card ι : ℝ))) * ((1 - g) * d.trace) + (g * (d.trace / (Fintype.card ι : ℝ))) ^ 2 * (Fintype.card ι : ℝ)
      = (1 - g) ^ 2 * frobSq d + (2 * g * (1 - g) + g ^ 2) * (d.trace ^ 2 / (Fintype.card ι : ℝ)) := by field_simp; ring
  rw [this]
  have h2 : d.trace ^ 2 / (Fintype.card ι : ℝ) ≤ frobSq d := by rw [div_le_iff₀ hp]; linarith
  have h3 : 0 ≤ 2 * g * (1 - g) + g ^ 2 := by nlinarith
  nlinarith [mul_le_mul_of_nonneg_left h2 h3]

/-- C108: ShrunkCovariance with the identity target and intensity in [0,1] likewise. -/
theorem C108_shrunk_nonexpansive [Nonempty ι] (pr : ShrunkParam) (ht : pr.target = "identity") (h0 : 0 ≤ pr.delta) (h1 : pr.delta ≤ 1)
    (calls calls' : List (Call ι ℝ)) (c c' e e' : Matrix ι ι ℝ)
    (hc : ((new (shrunkCls ι) pr).run calls).covariance = .ok c) (hc' : ((new (shrunkCls ι) pr).run calls').covariance = .ok c')
    (he : ((new (ewaCls ι ℝ) ⟨pr.r, pr.diff⟩).run calls).covariance = .ok e)
    (he' : ((new (ewaCls ι ℝ) ⟨pr.r, pr.diff⟩).run calls').covariance = .ok e') :
    ∑ i, ∑ j, (c i j - c' i j) ^ 2 ≤ ∑ i, ∑ j, (e i j - e' i j) ^ 2 := by
  obtain ⟨s, rfl⟩ := shrunk_attrs pr calls c e hc he
  obtain ⟨s', rfl⟩ := shrunk_attrs pr calls' c' e' hc' he'
  simp only [ht, if_true]
  have hsy : ∀ S : Matrix ι ι ℝ, Symm S → Symm ((1 - pr.delta) • S + pr.delta • (S.trace / (Fintype.card ι : ℝ)) • (1 : Matrix ι ι ℝ)) := by
    intro S hS i j
    simp only [Matrix.add_apply, Matrix.smul_apply, Matrix.one_apply, hS i j, eq_comm (a := i)]
  rw [toSymmetric_of_symm (hsy e s), toSymmetric_of_symm (hsy e' s')]
  have := frobSq_shrink (e - e') pr.delta h0 h1
  have ed : (1 - pr.delta) • (e - e') + (pr.delta * ((e - e').trace / (Fintype.card ι : ℝ))) • (1 : Matrix ι ι ℝ)
      = ((1 - pr.delta) • e + pr.delta • (e.trace / (Fintype.card ι : ℝ)) • (1 : Matrix ι ι ℝ))
        - ((1 - pr.delta) • e' + pr.delta • (e'.trace / (Fintype.card ι : ℝ)) • (1 : Matrix ι ι ℝ)) := by
    ext i j
    simp only [Matrix.add_apply, Matrix.sub_apply, Matrix.smul_apply, smul_eq_mul, Matrix.trace_sub]
    ring
  rw [ed] at this
  simpa only [frobSq, Matrix.sub_apply, ← sq] using this

/-! ## Forgetting -/

/-- Bound on the difference that is left of two pasts after `n` common rows of entries at most `B`. -/
def Spec.remaining (r B : ℝ) (n : ℕ) : ℝ := B ^ 2 * (8 * (1 - r) ^ n + 12 * n * r * (1 - r) ^ (n - 1))

theorem remaining_nonneg {r B : ℝ} (h0 : 0 ≤ r) (h1 : r ≤ 1) (n : ℕ) : 0 ≤ remaining r B n := by
  have : 0 ≤ 1 - r := by linarith
  unfold remaining; positivity

/-- C108: what is left of the past vanishes. -/
theorem C108_vanishes (r B : ℝ) (h0 : 0 < r) (h1 : r ≤ 1) : Filter.Tendsto (remaining r B) Filter.atTop (nhds 0) := by
  rw [← Filter.tendsto_add_atTop_iff_nat 1]
  have hq : |1 - r| < 1 := by rw [abs_lt]; constructor <;> linarith
  have a := tendsto_pow_atTop_nhds_zero_of_abs_lt_one hq
  have b := tendsto_self_mul_const_pow_of_abs_lt_one hq
  have e : (fun n : ℕ => remaining r B (n + 1)) = fun n : ℕ => B ^ 2 * (8 * (1 - r)) * (1 - r) ^ n + B ^ 2 * 12 * r * ((n : ℝ) * (1 - r) ^ n)
      + B ^ 2 * 12 * r * (1 - r) ^ n := by
    funext n
    unfold remaining
    rw [Nat.add_sub_cancel, pow_succ]
    push_cast
    ring
  rw [e]
  simpa using ((a.const_mul (B ^ 2 * (8 * (1 - r)))).add (b.const_mul (B ^ 2 * 12 * r))).add (a.const_mul (B ^ 2 * 12 * r))

theorem small_ewaFold {r B : ℝ} (h0 : 0 ≤ r) (h1 : r ≤ 1) (hB : 0 ≤ B) (xs : List (ι → ℝ)) (hx : Within B xs) : Small B (ewaFold r xs).toEmpState := by
  have : SmallE B r (ewaFold r xs) := by
    induction xs using List.reverseRecOn with
    | nil => exact smallE_init hB r
    | append_singleton xs x ih =>
      rw [ewaFold_snoc]
      exact smallE_update h0 h1 (ih fun z hz => hx z (by simp [hz])) (hx x (by simp))
  exact this.1

theorem ewaFold_append (r : ℝ) (xs ys : List (ι → ℝ)) : ewaFold r (xs ++ ys) = ys.foldl ewaUpdate (ewaFold r xs) := by
  simp [ewaFold]

theorem within_take {B : ℝ} {xs ys : List (ι → ℝ)} (hx : Within B xs) (hy : Within B ys) (k : ℕ) : Within B (xs ++ ys.take k) := by
  intro z hz
  rcases List.mem_append.1 hz with h | h
  · exact hx z h
  · exact hy z (List.mem_of_mem_take h)

theorem ewa_mean_gap {r B : ℝ} (h0 : 0 ≤ r) (h1 : r ≤ 1) (hB : 0 ≤ B) (xs xs' ys : List (ι → ℝ)) (b : ewaBurnN r ≤ xs.length)
    (b' : ewaBurnN r ≤ xs'.length) (hx : Within B xs) (hx' : Within B xs') (i : ι) :
    |(ewaFold r (xs ++ ys)).mean i - (ewaFold r (xs' ++ ys)).mean i| ≤ (1 - r) ^ ys.length * (2 * B) := by
  rw [ewaFold_append, ewaFold_append]
  have := congrFun (ewa_forget r ys (ewaFold r xs) (ewaFold r xs') (by rw [ewaFold_nBurn, ewaFold_n]; exact b)
    (by rw [ewaFold_nBurn, ewaFold_n]; exact b') (ewaFold_r r _) (ewaFold_r r _)) i
  rw [Pi.sub_apply] at this
  rw [this, Pi.smul_apply, smul_eq_mul, abs_mul, abs_of_nonneg (pow_nonneg (by linarith) _)]
  refine mul_le_mul_of_nonneg_left ?_ (pow_nonneg (by linarith) _)
  exact dev_abs ((small_ewaFold h0 h1 hB xs hx).mean i) ((small_ewaFold h0 h1 hB xs' hx').mean i)

theorem ewa_remaining {r B : ℝ} (h0 : 0 ≤ r) (h1 : r ≤ 1) (hB : 0 ≤ B) (xs xs' ys : List (ι → ℝ)) (b : ewaBurnN r ≤ xs.length)
    (b' : ewaBurnN r ≤ xs'.length) (hx : Within B xs) (hx' : Within B xs') (hy : Within B ys) (i j : ι) :
    |(ewaFold r (xs ++ ys)).cov i j - (ewaFold r (xs' ++ ys)).cov i j| ≤ remaining r B ys.length := by
  rw [ewaFold_append, ewaFold_append]
  have hs := small_ewaFold h0 h1 hB xs hx
  have ht := small_ewaFold h0 h1 hB xs' hx'
  refine (ewa_forget_cov r h0 h1 (2 * B) (2 * B) (by linarith) (by linarith) ys _ _ (by rw [ewaFold_nBurn, ewaFold_n]; exact b)
    (by rw [ewaFold_nBurn, ewaFold_n]; exact b') (ewaFold_r r _) (ewaFold_r r _) (fun i => dev_abs (hs.mean i) (ht.mean i)) ?_ i j).trans ?_
  · intro k hk i
    rw [← ewaFold_append]
    refine dev_abs ?_ ((small_ewaFold h0 h1 hB _ (within_take hx' hy k)).mean i)
    rw [List.getD_eq_getElem _ _ hk]
    exact hy _ (List.getElem_mem hk) i
  · have hc : |(ewaFold r xs).cov i j - (ewaFold r xs').cov i j| ≤ 8 * B ^ 2 := by
      have := abs_sub ((ewaFold r xs).cov i j) ((ewaFold r xs').cov i j)
      have := psd_entry_le hs.psd hs.var i j
      have := psd_entry_le ht.psd ht.var i j
      linarith
    unfold remaining
    have := mul_le_mul_of_nonneg_left hc (pow_nonneg (by linarith : (0:ℝ) ≤ 1 - r) ys.length)
    nlinarith

/-- C108: EwaCovariance: after `n` common rows two pasts (past the burn-in, entries at most `B`) leave every entry of `covariance_`
within `remaining r B n`. -/
theorem C108_ewa_forgets (p : RParam ℝ) (h0 : 0 ≤ p.r) (h1 : p.r ≤ 1) (calls calls' : List (Call ι ℝ)) (xs xs' ys : List (ι → ℝ))
    (hu : used p.diff calls = xs ++ ys) (hu' : used p.diff calls' = xs' ++ ys) (b : ewaBurnN p.r ≤ xs.length) (b' : ewaBurnN p.r ≤ xs'.length)
    (B : ℝ) (hx : Within B xs) (hx' : Within B xs') (hy : Within B ys) (c c' : Matrix ι ι ℝ)
    (hc : ((new (ewaCls ι ℝ) p).run calls).covariance = .ok c) (hc' : ((new (ewaCls ι ℝ) p).run calls').covariance = .ok c') (i j : ι) :
    |c i j - c' i j| ≤ remaining p.r B ys.length := by
  obtain ⟨hne, rfl⟩ := ewa_attrs_inv _ calls c hc
  obtain ⟨_, rfl⟩ := ewa_attrs_inv _ calls' c' hc'
  have hne0 : xs ≠ [] := by intro h; rw [h] at b; have := ewaBurnN_ge p.r; simp at b; omega
  rw [hu, hu']
  exact ewa_remaining h0 h1 (within_nonneg i hx hne0) xs xs' ys b b' hx hx' hy i j

theorem ewa_cov_exists (p : RParam ℝ) (calls : List (Call ι ℝ)) (h : used p.diff calls ≠ []) :
    ∃ e, ((new (ewaCls ι ℝ) p).run calls).covariance = .ok e := ⟨_, (ewa_attrs p calls h).2⟩

theorem lift_bound {c c' e e' : Matrix ι ι ℝ} {D : ℝ} (hD : 0 ≤ D) (h : ∑ i, ∑ j, (c i j - c' i j) ^ 2 ≤ ∑ i, ∑ j, (e i j - e' i j) ^ 2)
    (he : ∀ i j, |e i j - e' i j| ≤ D) (i j : ι) : |c i j - c' i j| ≤ (Fintype.card ι : ℝ) * D := by
  have h' : frobSq (c - c') ≤ frobSq (e - e') := by simpa only [frobSq, Matrix.sub_apply, ← sq] using h
  exact entry_le_of_frobSq hD (h'.trans (frobSq_le_of_entry (a := e - e') he)) i j

/-- C108: SchurCovariance (linear interpolation, `|gamma| ≤ 1`) forgets its past at the same geometric speed (up to the factor `p`). -/
theorem C108_schur_forgets {p : ℕ} (L : Lapack) (pr : SchurParam) (hi : pr.interpolation ≠ "geodesic") (hg : |pr.gamma| ≤ 1)
    (h0 : 0 ≤ pr.r) (h1 : pr.r ≤ 1) (calls calls' : List (Call (Fin p) ℝ)) (xs xs' ys : List (Fin p → ℝ))
    (hu : used pr.diff calls = xs ++ ys) (hu' : used pr.diff calls' = xs' ++ ys) (b : ewaBurnN pr.r ≤ xs.length) (b' : ewaBurnN pr.r ≤ xs'.length)
    (B : ℝ) (hx : Within B xs) (hx' : Within B xs') (hy : Within B ys) (c c' : Matrix (Fin p) (Fin p) ℝ)
    (hc : ((new (schurCls L p) pr).run calls).covariance = .ok c) (hc' : ((new (schurCls L p) pr).run calls').covariance = .ok c') (i j : Fin p) :
    |c i j - c' i j| ≤ p * remaining pr.r B ys.length := by
  obtain ⟨hne, _⟩ := schur_attrs_inv L pr calls c hc
  obtain ⟨hne', _⟩ := schur_attrs_inv L pr calls' c' hc'
  obtain ⟨e, he⟩ := ewa_cov_exists ⟨pr.r, pr.diff⟩ calls hne
  obtain ⟨e', he'⟩ := ewa_cov_exists ⟨pr.r, pr.diff⟩ calls' hne'
  have := lift_bound (remaining_nonneg h0 h1 _) (C108_schur_nonexpansive L pr hi hg calls calls' c c' e e' hc hc' he he')
    (C108_ewa_forgets ⟨pr.r, pr.diff⟩ h0 h1 calls calls' xs xs' ys hu hu' b b' B hx hx' hy e e' he he') i j
  simpa using this

/-- C108: BlockCovariance likewise. -/
theorem C108_block_forgets {p : ℕ} (L : Lapack) (pr : BlockParam) (hn : 1 ≤ pr.nBlocks)
    (h0 : 0 ≤ pr.r) (h1 : pr.r ≤ 1) (calls calls' : List (Call (Fin p) ℝ)) (xs xs' ys : List (Fin p → ℝ))
    (hu : used pr.diff calls = xs ++ ys) (hu' : used pr.diff calls' = xs' ++ ys) (b : ewaBurnN pr.r ≤ xs.length) (b' : ewaBurnN pr.r ≤ xs'.length)
    (B : ℝ) (hx : Within B xs) (hx' : Within B xs') (hy : Within B ys) (c c' : Matrix (Fin p) (Fin p) ℝ)
    (hc : ((new (blockCls L p) pr).run calls).covariance = .ok c) (hc' : ((new (blockCls L p) pr).run calls').covariance = .ok c') (i j : Fin p) :
    |c i j - c' i j| ≤ p * remaining pr.r B ys.length := by
  have hp : 1 ≤ p := by have := i.2; omega
  rw [(C26_is_schur L pr hn hp "linear" calls).1] at hc
  rw [(C26_is_schur L pr hn hp "linear" calls').1] at hc'
  exact C108_schur_forgets L ⟨pr.r, pr.nBlocks, 0, "linear", pr.diff⟩ (by show ("linear" : String) ≠ "geodesic"; decide) (by simp)
    h0 h1 calls calls' xs xs' ys hu hu' b b' B hx hx' hy c c' hc hc' i j

/-- C108: ShrunkCovariance (identity target) likewise. -/
theorem C108_shrunk_forgets (pr : ShrunkParam) (ht : pr.target = "identity") (hd0 : 0 ≤ pr.delta) (hd1 : pr.delta ≤ 1)
    (h0 : 0 ≤ pr.r) (h1 : pr.r ≤ 1) (calls calls' : List (Call ι ℝ)) (xs xs' ys : List (ι → ℝ))
    (hu : used pr.diff calls = xs ++ ys) (hu' : used pr.diff calls' = xs' ++ ys) (b : ewaBurnN pr.r ≤ xs.length) (b' : ewaBurnN pr.r ≤ xs'.length)
    (B : ℝ) (hx : Within B xs) (hx' : Within B xs') (hy : Within B ys) (c c' : Matrix ι ι ℝ)
    (hc : ((new (shrunkCls ι) pr).run calls).covariance = .ok c) (hc' : ((new (shrunkCls ι) pr).run calls').covariance = .ok c') (i j : ι) :
    |c i j - c' i j| ≤ (Fintype.card ι : ℝ) * remaining pr.r B ys.length := by
  haveI : Nonempty ι := ⟨i⟩
  obtain ⟨hne, _⟩ := run_covariance_inv (shrunk_lawful ι) pr calls c hc
  obtain ⟨hne', _⟩ := run_covariance_inv (shrunk_lawful ι) pr calls' c' hc'
  obtain ⟨e, he⟩ := ewa_cov_exists ⟨pr.r, pr.diff⟩ calls hne
  obtain ⟨e', he'⟩ := ewa_cov_exists ⟨pr.r, pr.diff⟩ calls' hne'
  exact lift_bound (remaining_nonneg h0 h1 _) (C108_shrunk_nonexpansive pr ht hd0 hd1 calls calls' c c' e e' hc hc' he he')
    (C108_ewa_forgets ⟨pr.r, pr.diff⟩ h0 h1 calls calls' xs xs' ys hu hu' b b' B hx hx' hy e e' he he') i j

theorem diag_remaining {r B : ℝ} (h0 : 0 ≤ r) (h1 : r ≤ 1) (hB : 0 ≤ B) (xs xs' : List (ι → ℝ)) (b : ewaBurnN r ≤ xs.length)
    (b' : ewaBurnN r ≤ xs'.length) (hx : Within B xs) (hx' : Within B xs') (i : ι) (D : ℝ)
    (hD : |(diagFold r xs).var i - (diagFold r xs').var i| ≤ D) (ys : List (ι → ℝ)) (hy : Within B ys) :
    |(diagFold r (xs ++ ys)).var i - (diagFold r (xs' ++ ys)).var i| ≤ (1 - r) ^ ys.length * D + 12 * ys.length * r * (1 - r) ^ (ys.length - 1) * B ^ 2 := by
  have hq : 0 ≤ 1 - r := by linarith
  induction ys using List.reverseRecOn with
  | nil => simpa using hD
  | append_singleton ys y ih =>
    have ih' := ih fun z hz => hy z (by simp [hz])
    have hyw : Within B ys := fun z hz => hy z (by simp [hz])
    rw [← List.append_assoc, ← List.append_assoc, diagFold_post r (xs ++ ys) y i (by simp; omega), diagFold_post r (xs' ++ ys) y i (by simp; omega)]
    have hy1 := hy y (by simp) i
    have w : Within B (xs ++ ys) := fun z hz => (List.mem_append.1 hz).elim (hx z) (hyw z)
    have w' : Within B (xs' ++ ys) := fun z hz => (List.mem_append.1 hz).elim (hx' z) (hyw z)
    have g := ewa_mean_gap h0 h1 hB xs xs' ys b b' hx hx' i
    set m := (ewaFold r (xs ++ ys)).mean i
    set m' := (ewaFold r (xs' ++ ys)).mean i
    have d1 : |y i - m| ≤ 2 * B := dev_abs hy1 ((small_ewaFold h0 h1 hB _ w).mean i)
    have d2 : |y i - m'| ≤ 2 * B := dev_abs hy1 ((small_ewaFold h0 h1 hB _ w').mean i)
    have sqd : |(y i - m) ^ 2 - (y i - m') ^ 2| ≤ (1 - r) ^ ys.length * (12 * B ^ 2) := by
      have e : (y i - m) ^ 2 - (y i - m') ^ 2 = -(m - m') * ((y i - m) + (y i - m')) := by ring
      rw [e, abs_mul, abs_neg]
      have h4 : |(y i - m) + (y i - m')| ≤ 4 * B := (abs_add_le _ _).trans (by linarith)
      have := mul_le_mul g h4 (abs_nonneg _) (by positivity)
      refine this.trans ?_
      have : 0 ≤ (1 - r) ^ ys.length := pow_nonneg hq _
      nlinarith [mul_nonneg this (sq_nonneg B)]
    have e2 : (1 - r) * (diagFold r (xs ++ ys)).var i + r * (y i - m) ^ 2 - ((1 - r) * (diagFold r (xs' ++ ys)).var i + r * (y i - m') ^ 2)
        = (1 - r) * ((diagFold r (xs ++ ys)).var i - (diagFold r (xs' ++ ys)).var i) + r * ((y i - m) ^ 2 - (y i - m') ^ 2) := by ring
    rw [e2]
    refine (abs_add_le _ _).trans ?_
    rw [abs_mul, abs_mul, abs_of_nonneg hq, abs_of_nonneg h0, List.length_append, List.length_singleton, Nat.add_sub_cancel]
    have a1 := mul_le_mul_of_nonneg_left ih' hq
    have a2 := mul_le_mul_of_nonneg_left sqd h0
    have e3 : (1 - r) * (12 * (ys.length : ℝ) * r * (1 - r) ^ (ys.length - 1) * B ^ 2) = 12 * (ys.length : ℝ) * r * (1 - r) ^ ys.length * B ^ 2 := by
      rcases Nat.eq_zero_or_pos ys.length with h | h
      · simp [h]
      · conv_rhs => rw [show ys.length = (ys.length - 1) + 1 by omega, pow_succ]
        push_cast [Nat.sub_add_cancel h]
        ring
    rw [pow_succ (1 - r)]
    push_cast
    rw [mul_add, e3] at a1
    nlinarith

/-- C108: DiagonalCovariance forgets like EwaCovariance. -/
theorem C108_diagonal_forgets (p : RParam ℝ) (h0 : 0 ≤ p.r) (h1 : p.r ≤ 1) (calls calls' : List (Call ι ℝ)) (xs xs' ys : List (ι → ℝ))
    (hu : used p.diff calls = xs ++ ys) (hu' : used p.diff calls' = xs' ++ ys) (b : ewaBurnN p.r ≤ xs.length) (b' : ewaBurnN p.r ≤ xs'.length)
    (B : ℝ) (hx : Within B xs) (hx' : Within B xs') (hy : Within B ys) (c c' : Matrix ι ι ℝ)
    (hc : ((new (diagonalCls ι ℝ) p).run calls).covariance = .ok c) (hc' : ((new (diagonalCls ι ℝ) p).run calls').covariance = .ok c') (i j : ι) :
    |c i j - c' i j| ≤ remaining p.r B ys.length := by
  obtain ⟨hne, rfl⟩ := diagonal_attrs p calls c hc
  obtain ⟨_, rfl⟩ := diagonal_attrs p calls' c' hc'
  have hne0 : xs ≠ [] := by intro h; rw [h] at b; have := ewaBurnN_ge p.r; simp at b; omega
  have hB := within_nonneg i hx hne0
  by_cases hij : i = j
  swap
  · rw [diagonal_apply_ne _ hij, diagonal_apply_ne _ hij]; simpa using remaining_nonneg h0 h1 _
  subst hij
  rw [diagonal_apply_eq, diagonal_apply_eq, hu, hu']
  have sm : ∀ xs : List (ι → ℝ), Within B xs → SmallD B p.r (diagFold p.r xs) := by
    intro xs hx
    induction xs using List.reverseRecOn with
    | nil => exact ⟨⟨fun i => by simpa [diagFold, diagInit] using hB, fun i => by simp [diagFold, diagInit], fun i => by simp [diagFold, diagInit]; positivity⟩, rfl⟩
    | append_singleton xs x ih =>
      rw [diagFold_snoc]
      exact smallD_update h0 h1 (ih fun z hz => hx z (by simp [hz])) (hx x (by simp))
  have s1 := (sm xs hx).1
  have s2 := (sm xs' hx').1
  have hD : |(diagFold p.r xs).var i - (diagFold p.r xs').var i| ≤ 8 * B ^ 2 := by
    rw [abs_le]
    have := s1.nonneg i; have := s1.var i; have := s2.nonneg i; have := s2.var i
    constructor <;> linarith
  refine (diag_remaining h0 h1 hB xs xs' b b' hx hx' i _ hD ys hy).trans (le_of_eq ?_)
  unfold remaining
  ring

/-! ## Stability of the derived classes -/

/-- C108: SchurCovariance (linear): perturbing every entry by at most `ε` moves every entry of `covariance_` by at most `8 p B ε`. -/
theorem C108_schur_stable {p : ℕ} (L : Lapack) (pr : SchurParam) (hi : pr.interpolation ≠ "geodesic") (hg : |pr.gamma| ≤ 1)
    (h0 : 0 ≤ pr.r) (h1 : pr.r ≤ 1) (calls calls' : List (Call (Fin p) ℝ)) (B ε : ℝ)
    (hn : Near ε (used pr.diff calls) (used pr.diff calls')) (hx : Within B (used pr.diff calls)) (hy : Within B (used pr.diff calls'))
    (c c' : Matrix (Fin p) (Fin p) ℝ) (hc : ((new (schurCls L p) pr).run calls).covariance = .ok c)
    (hc' : ((new (schurCls L p) pr).run calls').covariance = .ok c') (i j : Fin p) : |c i j - c' i j| ≤ p * (8 * B * ε) := by
  obtain ⟨hne, _⟩ := schur_attrs_inv L pr calls c hc
  obtain ⟨hne', _⟩ := schur_attrs_inv L pr calls' c' hc'
  obtain ⟨e, he⟩ := ewa_cov_exists ⟨pr.r, pr.diff⟩ calls hne
  obtain ⟨e', he'⟩ := ewa_cov_exists ⟨pr.r, pr.diff⟩ calls' hne'
  have hB := within_nonneg i hx hne
  have hε := near_nonneg i hn hne
  have a := ewa_attrs ⟨pr.r, pr.diff⟩ calls hne
  have a' := ewa_attrs ⟨pr.r, pr.diff⟩ calls' hne'
  have := lift_bound (by positivity) (C108_schur_nonexpansive L pr hi hg calls calls' c c' e e' hc hc' he he')
    (fun i j => (C97_ewa ⟨pr.r, pr.diff⟩ h0 h1 calls calls' B ε hn hx hy _ _ a.1 a'.1 e e' he he' i j).2) i j
  simpa using this

/-- C108: ShrunkCovariance (identity target) likewise. -/
theorem C108_shrunk_stable (pr : ShrunkParam) (ht : pr.target = "identity") (hd0 : 0 ≤ pr.delta) (hd1 : pr.delta ≤ 1)
    (h0 : 0 ≤ pr.r) (h1 : pr.r ≤ 1) (calls calls' : List (Call ι ℝ)) (B ε : ℝ)
    (hn : Near ε (used pr.diff calls) (used pr.diff calls')) (hx : Within B (used pr.diff calls)) (hy : Within B (used pr.diff calls'))
    (c c' : Matrix ι ι ℝ) (hc : ((new (shrunkCls ι) pr).run calls).covariance = .ok c)
    (hc' : ((new (shrunkCls ι) pr).run calls').covariance = .ok c') (i j : ι) : |c i j - c' i j| ≤ (Fintype.card ι : ℝ) * (8 * B * ε) := by
  haveI : Nonempty ι := ⟨i⟩
  obtain ⟨hne, _⟩ := run_covariance_inv (shrunk_lawful ι) pr calls c hc
  obtain ⟨hne', _⟩ := run_covariance_inv (shrunk_lawful ι) pr calls' c' hc'
  have hne : used pr.diff calls ≠ [] := hne
  have hne' : used pr.diff calls' ≠ [] := hne'
  obtain ⟨e, he⟩ := ewa_cov_exists ⟨pr.r, pr.diff⟩ calls hne
  obtain ⟨e', he'⟩ := ewa_cov_exists ⟨pr.r, pr.diff⟩ calls' hne'
  have hB := within_nonneg i hx hne
  have hε := near_nonneg i hn hne
  have a := ewa_attrs ⟨pr.r, pr.diff⟩ calls hne
  have a' := ewa_attrs ⟨pr.r, pr.diff⟩ calls' hne'
  exact lift_bound (by positivity) (C108_shrunk_nonexpansive pr ht hd0 hd1 calls calls' c c' e e' hc hc' he he')
    (fun i j => (C97_ewa ⟨pr.r, pr.diff⟩ h0 h1 calls calls' B ε hn hx hy _ _ a.1 a'.1 e e' he he' i j).2) i j

/-! ## AdaptiveEwaCovariance: the hangover of one outlier -/

/-- C108: one row whose squared Mahalanobis distance is at least `10 p (max_r / r) (10/9)^N` makes every one of the next `N`
rows, whatever they are, count with the full rate `max_r`. -/
theorem C108_adaptive_hangover [Nonempty ι] (L : Lapack) (pr : AdaParam) (hd : pr.diff = false) (hr : 0 < pr.r) (hm0 : 0 ≤ pr.maxR)
    (hm1 : pr.maxR ≤ 1) (burn : List (ι → ℝ)) (hb : burn.length = ewaBurnN pr.r) (y : ℕ → ι → ℝ) (N : ℕ) (m : ℕ → ι → ℝ)
    (C : ℕ → Matrix ι ι ℝ)
    (hm : ∀ t ≤ N + 1, ((new (adaptiveCls L ι) pr).run [.partialFit (.batch (burn ++ (List.range t).map y))]).location = .ok (m t))
    (hC : ∀ t ≤ N + 1, ((new (adaptiveCls L ι) pr).run [.partialFit (.batch (burn ++ (List.range t).map y))]).covariance = .ok (C t))
    (hout : 10 * (Fintype.card ι : ℝ) * (pr.maxR / pr.r) * (10 / 9) ^ N ≤ quad (tryInvert L (C 0)) (y 0 - m 0)) (k : ℕ) (hk : k ≤ N) :
    m (k + 1) = (1 - pr.maxR) • m k + pr.maxR • y k ∧
    C (k + 1) = (1 - pr.maxR) • C k + pr.maxR • outer (y k - m k) (y k - m k) := by
  have hf := C35_rate_formula L pr hd burn hb y k m C (fun t ht => hm t (by omega)) (fun t ht => hC t (by omega))
  have hp : (0:ℝ) < Fintype.card ι := by exact_mod_cast Fintype.card_pos
  have hpsd : ∀ t ≤ N + 1, PSD (C t) := fun t ht => C35_psd L pr hr.le hm0 hm1 _ _ (hC t ht)
  have hq : ∀ t ≤ N + 1, 0 ≤ quad (tryInvert L (C t)) (y t - m t) / (Fintype.card ι : ℝ) :=
    fun t ht => div_nonneg ((tryInvert_psd L (hpsd t ht)).2 _) hp.le
  have hs : pr.maxR ≤ pr.r * ((9 / 10 : ℝ) ^ (k + 1) + ∑ t ∈ Finset.range (k + 1), 1 / 10 * (9 / 10 : ℝ) ^ (k - t) *
      (quad (tryInvert L (C t)) (y t - m t) / (Fintype.card ι : ℝ))) := by
    have h1 : 1 / 10 * (9 / 10 : ℝ) ^ (k - 0) * (quad (tryInvert L (C 0)) (y 0 - m 0) / (Fintype.card ι : ℝ))
        ≤ ∑ t ∈ Finset.range (k + 1), 1 / 10 * (9 / 10 : ℝ) ^ (k - t) * (quad (tryInvert L (C t)) (y t - m t) / (Fintype.card ι : ℝ)) := by
      refine Finset.single_le_sum (f := fun t => 1 / 10 * (9 / 10 : ℝ) ^ (k - t) * (quad (tryInvert L (C t)) (y t - m t) / (Fintype.card ι : ℝ))) ?_ (by simp)
      intro t ht
      rw [Finset.mem_range] at ht
      exact mul_nonneg (by positivity) (hq t (by omega))
    have h2 : pr.maxR / pr.r ≤ 1 / 10 * (9 / 10 : ℝ) ^ (k - 0) * (quad (tryInvert L (C 0)) (y 0 - m 0) / (Fintype.card ι : ℝ)) := by
      have h3 : 10 * (pr.maxR / pr.r) * (10 / 9) ^ N ≤ quad (tryInvert L (C 0)) (y 0 - m 0) / (Fintype.card ι : ℝ) := by
        rw [le_div_iff₀ hp]; linarith
      have h4 : (9 / 10 : ℝ) ^ N ≤ (9 / 10 : ℝ) ^ (k - 0) := pow_le_pow_of_le_one (by norm_num) (by norm_num) (by omega)
      have h5 : (9 / 10 : ℝ) ^ N * (10 / 9) ^ N = 1 := by rw [← mul_pow]; norm_num
      have h6 := hq 0 (by omega)
      calc pr.maxR / pr.r = 1 / 10 * (9 / 10 : ℝ) ^ N * (10 * (pr.maxR / pr.r) * (10 / 9) ^ N) := by
            rw [show 1 / 10 * (9 / 10 : ℝ) ^ N * (10 * (pr.maxR / pr.r) * (10 / 9) ^ N) = ((9 / 10 : ℝ) ^ N * (10 / 9) ^ N) * (pr.maxR / pr.r) by ring, h5, one_mul]
        _ ≤ 1 / 10 * (9 / 10 : ℝ) ^ (k - 0) * (quad (tryInvert L (C 0)) (y 0 - m 0) / (Fintype.card ι : ℝ)) :=
            mul_le_mul (mul_le_mul_of_nonneg_left h4 (by norm_num)) h3 (by have := div_nonneg hm0 hr.le; positivity) (by positivity)
    rw [div_le_iff₀ hr] at h2
    have h7 := mul_le_mul_of_nonneg_left h1 hr.le
    have h8 : 0 ≤ pr.r * (9 / 10 : ℝ) ^ (k + 1) := by positivity
    nlinarith
  have hρ : min (max (pr.r * ((9 / 10 : ℝ) ^ (k + 1) + ∑ t ∈ Finset.range (k + 1), 1 / 10 * (9 / 10 : ℝ) ^ (k - t) *
      (quad (tryInvert L (C t)) (y t - m t) / (Fintype.card ι : ℝ)))) pr.r) pr.maxR = pr.maxR :=
    min_eq_right (hs.trans (le_max_left _ _))
  simp only [hρ] at hf
  exact hf

/-- C108: such an outlier exists after every burn-in with a nonsingular covariance: for every `N` there is a row after which the next
`N` rows all count with the rate `max_r`, whatever they are (the code comments that one spike does not overshoot). -/
theorem C108_adaptive_one_outlier [Nonempty ι] (L : Lapack) (pr : AdaParam) (hd : pr.diff = false) (hr : 0 < pr.r) (hm0 : 0 ≤ pr.maxR)
    (hm1 : pr.maxR ≤ 1) (burn : List (ι → ℝ)) (hb : burn.length = ewaBurnN pr.r) (S : Matrix ι ι ℝ) (a : ι → ℝ)
    (hS : ((new (adaptiveCls L ι) pr).run [.partialFit (.batch burn)]).covariance = .ok S) (hpd : PD S)
    (ha : ((new (adaptiveCls L ι) pr).run [.partialFit (.batch burn)]).location = .ok a) (N : ℕ) :
    ∃ x : ι → ℝ, ∀ (zs : List (ι → ℝ)) (z : ι → ℝ), zs.length + 1 ≤ N → ∀ (m m' : ι → ℝ) (C C' : Matrix ι ι ℝ),
      ((new (adaptiveCls L ι) pr).run [.partialFit (.batch (burn ++ x :: zs))]).location = .ok m →
      ((new (adaptiveCls L ι) pr).run [.partialFit (.batch (burn ++ x :: zs))]).covariance = .ok C →
      ((new (adaptiveCls L ι) pr).run [.partialFit (.batch (burn ++ x :: (zs ++ [z])))]).location = .ok m' →
      ((new (adaptiveCls L ι) pr).run [.partialFit (.batch (burn ++ x :: (zs ++ [z])))]).covariance = .ok C' →
      m' = (1 - pr.maxR) • m + pr.maxR • z ∧ C' = (1 - pr.maxR) • C + pr.maxR • outer (z - m) (z - m) := by
  obtain ⟨i₀⟩ := ‹Nonempty ι›
  haveI : Nonempty ι := ⟨i₀⟩
  have hinv : 0 < quad (tryInvert L S) (Pi.single i₀ 1) := by
    rw [tryInvert_of_pd L hpd]
    exact hpd.inv.2 _ (by intro h; simpa using congrFun h i₀)
  set q := quad (tryInvert L S) (Pi.single i₀ 1) with hq
  set T := 10 * (Fintype.card ι : ℝ) * (pr.maxR / pr.r) * (10 / 9) ^ N with hT
  have hT0 : 0 ≤ T := by have := div_nonneg hm0 hr.le; positivity
  have hquad : quad (tryInvert L S) ((T / q + 1) • (Pi.single i₀ 1 : ι → ℝ)) = (T / q + 1) ^ 2 * q := by
    rw [hq]; simp only [quad, Matrix.mulVec_smul, dotProduct_smul, smul_dotProduct, smul_eq_mul]; ring
  have hbig : T ≤ (T / q + 1) ^ 2 * q := by
    have h1 : 0 ≤ T / q := div_nonneg hT0 hinv.le
    have h2 : T = T / q * q := by field_simp
    nlinarith
  have hbne : burn ≠ [] := by intro h; rw [h] at hb; have := ewaBurnN_ge pr.r; simp at hb; omega
  refine ⟨a + (T / q + 1) • Pi.single i₀ 1, fun zs z hz m m' C C' h1 h2 h3 h4 => ?_⟩
  set x := a + (T / q + 1) • (Pi.single i₀ 1 : ι → ℝ) with hx
  let y : ℕ → ι → ℝ := fun t => (x :: (zs ++ [z])).getD t 0
  have hy : ∀ t ≤ zs.length + 2, (List.range t).map y = (x :: (zs ++ [z])).take t := by
    intro t ht
    apply List.ext_getElem
    · simp; omega
    · intro k k1 k2
      simp only [List.getElem_map, List.getElem_range, List.getElem_take, y]
      rw [List.getD_eq_getElem _ _ (by simp at k1 ⊢; omega)]
  have hex : ∀ t, used pr.diff [Call.partialFit (.batch (burn ++ (List.range t).map y))] ≠ [] := by
    intro t; rw [hd, used_batch]; simp [hbne]
  let mm : ℕ → ι → ℝ := fun t => (adaFold L pr (burn ++ (List.range t).map y)).mean
  let CC : ℕ → Matrix ι ι ℝ := fun t => (adaFold L pr (burn ++ (List.range t).map y)).cov
  have hmm : ∀ t, ((new (adaptiveCls L ι) pr).run [.partialFit (.batch (burn ++ (List.range t).map y))]).location = .ok (mm t) := by
    intro t
    have h := run_location (adaptive_lawful L ι) pr _ (hex t)
    rw [h]
    have : used ((adaptiveCls L ι).diff pr) [Call.partialFit (.batch (burn ++ (List.range t).map y))] = burn ++ (List.range t).map y := by
      show used pr.diff _ = _
      rw [hd, used_batch]
    rw [this]; rfl
  have hCC : ∀ t, ((new (adaptiveCls L ι) pr).run [.partialFit (.batch (burn ++ (List.range t).map y))]).covariance = .ok (CC t) := by
    intro t
    have h := run_covariance (adaptive_lawful L ι) pr _ (hex t)
    rw [h]
    have : used ((adaptiveCls L ι).diff pr) [Call.partialFit (.batch (burn ++ (List.range t).map y))] = burn ++ (List.range t).map y := by
      show used pr.diff _ = _
      rw [hd, used_batch]
    rw [this]
    exact congrArg _ (toSymmetric_of_symm (adaFold_symm L pr _))
  have e0 : CC 0 = S := by
    have := hCC 0; simp only [List.range_zero, List.map_nil, List.append_nil] at this
    rw [hS] at this; exact (Except.ok.inj this).symm
  have e1 : mm 0 = a := by
    have := hmm 0; simp only [List.range_zero, List.map_nil, List.append_nil] at this
    rw [ha] at this; exact (Except.ok.inj this).symm
  have hout : T ≤ quad (tryInvert L (CC 0)) (y 0 - mm 0) := by
    rw [e0, e1, show y 0 - a = (T / q + 1) • Pi.single i₀ 1 by simp [y, hx], hquad]; exact hbig
  have key := C108_adaptive_hangover L pr hd hr hm0 hm1 burn hb y N mm CC (fun t _ => hmm t) (fun t _ => hCC t) hout (zs.length + 1) hz
  have f1 := hmm (zs.length + 1)
  have f2 := hCC (zs.length + 1)
  have f3 := hmm (zs.length + 2)
  have f4 := hCC (zs.length + 2)
  rw [hy _ (by omega), show (x :: (zs ++ [z])).take (zs.length + 1) = x :: zs by simp] at f1 f2
  rw [hy _ (by omega), show (x :: (zs ++ [z])).take (zs.length + 2) = x :: (zs ++ [z]) by simp] at f3 f4
  rw [h1] at f1; rw [h2] at f2; rw [h3] at f3; rw [h4] at f4
  rw [Except.ok.inj f1, Except.ok.inj f2, Except.ok.inj f3, Except.ok.inj f4]
  have hz2 : y (zs.length + 1) = z := by simp [y]
  rw [hz2] at key
  exact key

/-! ## FactorCovariance: blind to a new regime -/

/-- One loop over components all orthogonal to the deviation: every component just decays. -/
theorem factorLoop_orth (lr : ℝ) (V : List (ι → ℝ)) (u : ι → ℝ) (hl : ∀ v ∈ V, EPS ≤ vecNorm v) (ho : ∀ v ∈ V, u ⬝ᵥ v = 0) :
    factorLoop lr V u = V.map fun v => (1 - lr) • v := by
  induction V with
  | nil => rfl
  | cons v V ih =>
    have hv : ¬ vecNorm v < EPS := not_lt.2 (hl v (by simp))
    have hp : ∑ i, u i * (v i / vecNorm v) = 0 := by
      have := ho v (by simp)
      simp only [dotProduct] at this
      simp only [mul_div_assoc', ← Finset.sum_div]
      rw [this, zero_div]
    unfold factorLoop
    simp only [hv, if_false, hp, zero_mul, mul_zero, add_zero, sub_zero, List.map_cons]
    rw [ih (fun w hw => hl w (by simp [hw])) (fun w hw => ho w (by simp [hw]))]
    rfl

theorem vecNorm_smul {a : ℝ} (ha : 0 ≤ a) (v : ι → ℝ) : vecNorm (a • v) = a * vecNorm v := by
  unfold vecNorm
  have : normSq (a • v) = a ^ 2 * normSq v := by
    simp only [normSq, dotProduct, Pi.smul_apply, smul_eq_mul, Finset.mul_sum]
    exact Finset.sum_congr rfl fun i _ => by ring
  rw [this, Real.sqrt_mul (sq_nonneg a), Real.sqrt_sq ha]

theorem factor_orth_run (pr : FactorParam) (h0 : 0 ≤ pr.r) (h1 : pr.r ≤ 1) (xs : List (ι → ℝ))
    (hb : min pr.k (Fintype.card ι) + 1 ≤ xs.length) (ys : List (ι → ℝ))
    (hl : ∀ v ∈ (factorFold pr xs).V, EPS < (1 - pr.r) ^ ys.length * vecNorm v)
    (hm : ∀ v ∈ (factorFold pr xs).V, (factorFold pr xs).mean ⬝ᵥ v = 0) (ho : ∀ v ∈ (factorFold pr xs).V, ∀ y ∈ ys, y ⬝ᵥ v = 0) :
    (factorFold pr (xs ++ ys)).V = (factorFold pr xs).V.map (fun v => (1 - pr.r) ^ ys.length • v) ∧
    ∀ v ∈ (factorFold pr xs).V, (factorFold pr (xs ++ ys)).mean ⬝ᵥ v = 0 := by
  have hq : 0 ≤ 1 - pr.r := by linarith
  induction ys using List.reverseRecOn with
  | nil => refine ⟨by simp, by simpa using hm⟩
  | append_singleton ys y ih =>
    obtain ⟨i1, i2⟩ := ih (fun v hv => (hl v hv).trans_le (mul_le_mul_of_nonneg_right
        (pow_le_pow_of_le_one hq (by linarith) (by simp)) (Real.sqrt_nonneg _))) (fun v hv z hz => ho v hv z (by simp [hz]))
    rw [← List.append_assoc, factorFold_snoc]
    obtain ⟨hn, hr, hk, hbn⟩ := factorFold_inv pr (xs ++ ys)
    have hc : ¬ (factorFold pr (xs ++ ys)).nSamples + 1 ≤ (factorFold pr (xs ++ ys)).nBurn := by
      rw [hn, hbn]; simp; omega
    unfold factorUpdate
    simp only [hc, if_false, hr]
    constructor
    · rw [i1, factorLoop_orth]
      · rw [List.map_map]
        refine List.map_congr_left fun v _ => ?_
        simp only [Function.comp, smul_smul, List.length_append, List.length_singleton, pow_succ]
        congr 1; ring
      · intro w hw
        obtain ⟨v, hv, rfl⟩ := List.mem_map.1 hw
        rw [vecNorm_smul (pow_nonneg hq _)]
        exact ((hl v hv).trans_le (mul_le_mul_of_nonneg_right
          (pow_le_pow_of_le_one hq (by linarith) (by simp)) (Real.sqrt_nonneg _))).le
      · intro w hw
        obtain ⟨v, hv, rfl⟩ := List.mem_map.1 hw
        have e : (fun i => y i - (factorFold pr (xs ++ ys)).mean i) = y - (factorFold pr (xs ++ ys)).mean := rfl
        rw [e, dotProduct_smul, sub_dotProduct, ho v hv y (by simp), i2 v hv]
        simp
    · intro v hv
      have e : (fun i => (1 - pr.r) * (factorFold pr (xs ++ ys)).mean i + pr.r * y i) = (1 - pr.r) • (factorFold pr (xs ++ ys)).mean + pr.r • y := rfl
      rw [e, add_dotProduct, smul_dotProduct, smul_dotProduct, i2 v hv, ho v hv y (by simp)]
      simp

theorem factorPart_smul (V : List (ι → ℝ)) {a : ℝ} (ha0 : 0 < a) (ha1 : a ≤ 1) (hl : ∀ v ∈ V, EPS < a * vecNorm v) :
    factorPart (V.map fun v => a • v) = a • factorPart V := by
  classical
  have hl' : ∀ v ∈ V, EPS < vecNorm v := fun v hv => (hl v hv).trans_le (mul_le_of_le_one_left (Real.sqrt_nonneg _) ha1)
  unfold factorPart factorActive
  rw [List.filter_eq_self.2, List.filter_eq_self.2]
  · induction V with
    | nil => simp
    | cons v V ih =>
      simp only [List.map_cons, List.sum_cons, smul_add]
      rw [ih (fun w hw => hl w (by simp [hw])) (fun w hw => hl' w (by simp [hw]))]
      congr 1
      have : 0 < vecNorm v := EPS_pos.trans (hl' v (by simp))
      rw [vecNorm_smul ha0.le]
      ext i j
      simp only [outer, Matrix.smul_apply, of_apply, Pi.smul_apply, smul_eq_mul]
      field_simp
  · intro v hv; simpa using hl' v hv
  · intro w hw
    obtain ⟨v, hv, rfl⟩ := List.mem_map.1 hw
    rw [vecNorm_smul ha0.le]; simpa using hl v hv

/-- C108: FactorCovariance is blind to movements orthogonal to its components: as long as the components are longer than 1e-12, rows (and
a location) orthogonal to all of them leave no trace in the covariances; those just decay by `1 - r` per row. -/
theorem C108_factor_blind (pr : FactorParam) (h0 : 0 ≤ pr.r) (h1 : pr.r < 1) (calls calls' : List (Call ι ℝ)) (xs ys : List (ι → ℝ))
    (hu : used pr.diff calls = xs) (hu' : used pr.diff calls' = xs ++ ys) (hb : min pr.k (Fintype.card ι) + 1 ≤ xs.length)
    (m : ι → ℝ) (hm : ((new (factorCls ι) pr).run calls).location = .ok m)
    (c c' : Matrix ι ι ℝ) (hc : ((new (factorCls ι) pr).run calls).covariance = .ok c)
    (hc' : ((new (factorCls ι) pr).run calls').covariance = .ok c')
    (hv : ∀ j < min pr.k (Fintype.card ι), let v := ccipca (1 / 10 ^ 12) pr.r (min pr.k (Fintype.card ι) + 1) xs xs.length j
      1 / 10 ^ 12 < (1 - pr.r) ^ ys.length * len v ∧ m ⬝ᵥ v = 0 ∧ ∀ y ∈ ys, y ⬝ᵥ v = 0) (i j : ι) (hij : i ≠ j) :
    c' i j = (1 - pr.r) ^ ys.length * c i j := by
  have hE : (EPS : ℝ) = 1 / 10 ^ 12 := by unfold EPS; norm_num
  obtain ⟨_, e1⟩ := run_covariance_inv (factor_lawful ι) pr calls c hc
  obtain ⟨_, e2⟩ := run_covariance_inv (factor_lawful ι) pr calls' c' hc'
  have e3 : m = (factorFold pr xs).mean := by
    have := (run_location_inv (factor_lawful ι) pr calls m hm).2
    change m = (factorFold pr (used pr.diff calls)).mean at this
    rwa [hu] at this
  change c = toSymmetric (factorCov (factorFold pr (used pr.diff calls))) at e1
  change c' = toSymmetric (factorCov (factorFold pr (used pr.diff calls'))) at e2
  rw [hu] at e1
  rw [hu'] at e2
  have hs : ∀ zs : List (ι → ℝ), Symm (factorCov (factorFold pr zs)) := fun zs => (factorPart_psd (factorFold pr zs).V).1.add (symm_diagonal _)
  rw [toSymmetric_of_symm (hs _)] at e1 e2
  have hmem : ∀ v ∈ (factorFold pr xs).V, ∃ j < min pr.k (Fintype.card ι), v = ccipca (1 / 10 ^ 12) pr.r (min pr.k (Fintype.card ι) + 1) xs xs.length j := by
    intro v hv
    obtain ⟨j, hj, rfl⟩ := List.getElem_of_mem hv
    have hl := (factorFold_V pr xs).1
    refine ⟨j, by omega, ?_⟩
    rw [← hE, ← factorFold_ccipca pr xs j (by omega), List.getD_eq_getElem _ _ hj]
  have hq : 0 < 1 - pr.r := by linarith
  have hlen : ∀ v ∈ (factorFold pr xs).V, EPS < (1 - pr.r) ^ ys.length * vecNorm v := by
    intro v hv'; obtain ⟨j, hj, rfl⟩ := hmem v hv'; rw [hE, vecNorm_len]; exact (hv j hj).1
  have hrun := factor_orth_run pr h0 h1.le xs hb ys hlen
    (by intro v hv'; obtain ⟨j, hj, rfl⟩ := hmem v hv'; rw [← e3]; exact (hv j hj).2.1)
    (by intro v hv' y hy; obtain ⟨j, hj, rfl⟩ := hmem v hv'; exact (hv j hj).2.2 y hy)
  rw [e1, e2]
  unfold factorCov
  rw [Matrix.add_apply, Matrix.add_apply, diagonal_apply_ne _ hij, diagonal_apply_ne _ hij, add_zero, add_zero, hrun.1,
    factorPart_smul _ (pow_pos hq _) (pow_le_one₀ hq.le (by linarith)) hlen]
  rfl

theorem vecNorm_single (a : ι) {c : ℝ} (hc : 0 ≤ c) : vecNorm (Pi.single a c) = c := by
  unfold vecNorm normSq
  have : ∑ i, (Pi.single a c : ι → ℝ) i * (Pi.single a c : ι → ℝ) i = c * c := by
    rw [Finset.sum_eq_single a]
    · simp
    · intro b _ hb; simp [Pi.single_eq_of_ne hb]
    · simp
  rw [this, Real.sqrt_mul_self hc]

theorem factor_two_rows (r : ℝ) (d : Bool) (a : ι) {c : ℝ} (hc : 1 ≤ c) :
    (factorFold ⟨1, r, d⟩ [Pi.single a c, -Pi.single a c]).V = [Pi.single a (c / 2 + 2 * c ^ 2)] ∧
    (factorFold ⟨1, r, d⟩ [Pi.single a c, -Pi.single a c]).mean = 0 := by
  have hp : 1 ≤ Fintype.card ι := Fintype.card_pos_iff.2 ⟨a⟩
  have hk : min 1 (Fintype.card ι) = 1 := by omega
  have hE : (EPS : ℝ) < 1 := by unfold EPS; norm_num
  have s1 : factorUpdate (factorInit (ι := ι) ⟨1, r, d⟩) (Pi.single a c)
      = ⟨1, Pi.single a c, fun i => (Pi.single a c : ι → ℝ) i * (Pi.single a c : ι → ℝ) i, [Pi.single a c], 1, r, 2⟩ := by
    have h0 : vecNorm (0 : ι → ℝ) < EPS := by rw [vecNorm_zero]; exact EPS_pos
    unfold factorUpdate factorInit
    simp only [hk, List.replicate, factorLoop, h0, if_true]
    norm_num
  have hl : ¬ vecNorm (Pi.single a c : ι → ℝ) < EPS := by rw [vecNorm_single a (by linarith)]; linarith
  unfold factorFold
  simp only [List.foldl_cons, List.foldl_nil]
  rw [s1]
  unfold factorUpdate
  simp only [factorLoop, hl, if_false]
  norm_num
  rw [vecNorm_single a (by linarith)]
  have hc0 : c ≠ 0 := by linarith
  constructor
  · have hproj : ∑ i, (-(Pi.single a c : ι → ℝ) i - (Pi.single a c : ι → ℝ) i) * ((Pi.single a c : ι → ℝ) i / c) = -2 * c := by
      rw [Finset.sum_eq_single a]
      · simp only [Pi.single_eq_same]; field_simp; ring
      · intro b _ hb; simp [Pi.single_eq_of_ne hb]
      · simp
    rw [hproj]
    ext i
    by_cases hi : i = a
    · subst hi; simp only [Pi.single_eq_same]; ring
    · simp [Pi.single_eq_of_ne hi]
  · ext i
    by_cases hi : i = a
    · subst hi; simp only [Pi.single_eq_same, Pi.zero_apply]; ring
    · simp [Pi.single_eq_of_ne hi]

theorem factorPart_single (a : ι) (g : ℝ) (i j : ι) (hij : i ≠ j) : factorPart [(Pi.single a g : ι → ℝ)] i j = 0 := by
  classical
  unfold factorPart factorActive
  have : ((Pi.single a g : ι → ℝ) i) * (Pi.single a g : ι → ℝ) j = 0 := by
    by_cases hi : i = a
    · rw [Pi.single_eq_of_ne (fun h : j = a => hij (hi.trans h.symm)), mul_zero]
    · rw [Pi.single_eq_of_ne hi, zero_mul]
  rw [List.filter_cons]
  split
  · simp [outer, this]
  · simp

theorem factor_blind_aux (r : ℝ) (h0 : 0 ≤ r) (h1 : r < 1) (N : ℕ) (a : ι) (c : ℝ) (hc1 : 1 ≤ c) (e1 : (1 - r) ^ N * c = 2)
    (ys : List (ι → ℝ)) (hN : ys.length ≤ N) (hy : ∀ y ∈ ys, y a = 0) (i j : ι) (hij : i ≠ j) :
    factorPart (factorFold ⟨1, r, false⟩ ([Pi.single a c, -Pi.single a c] ++ ys)).V i j = 0 := by
  have hq : 0 < 1 - r := by linarith
  obtain ⟨hV, hm⟩ := factor_two_rows (ι := ι) r false a hc1
  have hE : (EPS : ℝ) < 1 := by unfold EPS; norm_num
  have hlen : ∀ v ∈ (factorFold ⟨1, r, false⟩ [(Pi.single a c : ι → ℝ), -Pi.single a c]).V, EPS < (1 - r) ^ ys.length * vecNorm v := by
    intro v hv
    rw [hV, List.mem_singleton] at hv
    rw [hv, vecNorm_single a (by positivity)]
    have e2 : (1 - r) ^ N ≤ (1 - r) ^ ys.length := pow_le_pow_of_le_one hq.le (by linarith) hN
    have e3 : c / 2 ≤ c / 2 + 2 * c ^ 2 := by nlinarith
    have e4 := mul_le_mul e2 e3 (by linarith) (pow_nonneg hq.le _)
    linarith
  have hrun := factor_orth_run ⟨1, r, false⟩ h0 h1.le [(Pi.single a c : ι → ℝ), -Pi.single a c]
    (by show min 1 _ + 1 ≤ _; simp) ys hlen (by intro v hv; rw [hm, zero_dotProduct])
    (by
      intro v hv y hy'
      rw [hV, List.mem_singleton] at hv
      rw [hv, dotProduct_single, hy y hy', zero_mul])
  rw [hrun.1, factorPart_smul _ (pow_pos hq _) (pow_le_one₀ hq.le (by simp [h0])) hlen, hV, Matrix.smul_apply, factorPart_single a _ i j hij, smul_zero]

/-- C108: FactorCovariance with one factor, any rate below 1, any `N`: two first rows exist after which any `N` rows that are zero in one
variable, however correlated in the others, are reported as uncorrelated. -/
theorem C108_factor_blind_witness (r : ℝ) (h0 : 0 ≤ r) (h1 : r < 1) (N : ℕ) (a : ι) :
    ∃ c : ℝ, ∀ ys : List (ι → ℝ), ys.length ≤ N → (∀ y ∈ ys, y a = 0) → ∃ C,
      ((new (factorCls ι) (⟨1, r, false⟩ : FactorParam)).run [.partialFit (.batch ([Pi.single a c, -Pi.single a c] ++ ys))]).covariance = .ok C ∧
      ∀ i j, i ≠ j → C i j = 0 := by
  have hq : 0 < 1 - r := by linarith
  have hpN : 0 < (1 - r) ^ N := pow_pos hq N
  have hc1 : 1 ≤ 2 / (1 - r) ^ N := by
    rw [le_div_iff₀ hpN]
    have := pow_le_one₀ (n := N) hq.le (by linarith : 1 - r ≤ 1)
    linarith
  refine ⟨2 / (1 - r) ^ N, fun ys hN hy => ?_⟩
  obtain ⟨C, hC⟩ := run_cov_ok (factor_lawful ι) (⟨1, r, false⟩ : FactorParam)
    [Call.partialFit (.batch ([Pi.single a (2 / (1 - r) ^ N), -Pi.single a (2 / (1 - r) ^ N)] ++ ys))]
    (by show used false _ ≠ []; rw [used_batch]; simp)
  refine ⟨C, hC, fun i j hij => ?_⟩
  have e1 := (run_covariance_inv (factor_lawful ι) _ _ C hC).2
  change C = toSymmetric (factorCov (factorFold ⟨1, r, false⟩ (used false _))) at e1
  rw [used_batch] at e1
  unfold factorCov at e1
  rw [toSymmetric_of_symm ((factorPart_psd _).1.add (symm_diagonal _))] at e1
  rw [e1, Matrix.add_apply, diagonal_apply_ne _ hij, add_zero]
  exact factor_blind_aux r h0 h1 N a _ hc1 (by field_simp) ys hN hy i j hij

-- perfectly correlated rows in variables 1 and 2, 500 of them, after the two first rows of the default rate
example : ∃ c : ℝ, ∀ ys : List (Fin 3 → ℝ), ys.length ≤ 500 → (∀ y ∈ ys, y 0 = 0) → ∃ C,
    ((new (factorCls (Fin 3)) (⟨1, 1/20, false⟩ : FactorParam)).run [.partialFit (.batch ([Pi.single 0 c, -Pi.single 0 c] ++ ys))]).covariance = .ok C ∧
      ∀ i j, i ≠ j → C i j = 0 := C108_factor_blind_witness (1/20) (by norm_num) (by norm_num) 500 0

-- two pasts of the default rate and a common continuation meet the hypotheses of the forgetting theorems
example : ewaBurnN (1 / 20 : ℝ) ≤ (List.replicate 50 (fun _ : Fin 2 => (1:ℝ))).length ∧
    ewaBurnN (1 / 20 : ℝ) ≤ (List.replicate 60 (fun _ : Fin 2 => (-1:ℝ))).length ∧
    Within 1 (List.replicate 50 (fun _ : Fin 2 => (1:ℝ))) ∧ Within 1 (List.replicate 60 (fun _ : Fin 2 => (-1:ℝ))) := by
  have hb : ewaBurnN (1 / 20 : ℝ) = 20 := by
    unfold ewaBurnN; norm_num; rfl
  refine ⟨by rw [hb]; simp, by rw [hb]; simp, fun x hx i => ?_, fun x hx i => ?_⟩
  · rw [List.eq_of_mem_replicate hx]; simp
  · rw [List.eq_of_mem_replicate hx]; simp

/-- A burn-in of one variable with variance 1. -/
theorem demo_adaptive (L : Lapack) : (adaFold L (⟨1/5, 1/2, false⟩ : AdaParam) [fun _ : Fin 1 => 1, fun _ => -1, fun _ => 1, fun _ => -1, fun _ => 0]).cov 0 0 = 4 / 5 := by
  have hb : ewaBurnN (1 / 5 : ℝ) = 5 := by unfold ewaBurnN; norm_num; rfl
  have s0 : ((adaptiveCls L (Fin 1)).initState (⟨1/5, 1/2, false⟩ : AdaParam)) = { toEwaState := ewaInit (1/5), maxR := 1/2, sbar := 1 } := rfl
  simp only [adaFold, List.foldl_cons, List.foldl_nil, s0, adaUpdate, ewaInit, hb, empInit, ewaBurnStep, empUpdate]
  norm_num [outer]

-- the hypotheses of `C108_adaptive_one_outlier` are met by a burn-in of five rows
example (L : Lapack) (N : ℕ) : ∃ S a, ((new (adaptiveCls L (Fin 1)) (⟨1/5, 1/2, false⟩ : AdaParam)).run
    [.partialFit (.batch [fun _ => 1, fun _ => -1, fun _ => 1, fun _ => -1, fun _ => 0])]).covariance = .ok S ∧ PD S ∧
    ((new (adaptiveCls L (Fin 1)) (⟨1/5, 1/2, false⟩ : AdaParam)).run
    [.partialFit (.batch [fun _ => 1, fun _ => -1, fun _ => 1, fun _ => -1, fun _ => 0])]).location = .ok a := by
  have hne : used (false) [Call.partialFit (.batch [fun _ : Fin 1 => (1:ℝ), fun _ => -1, fun _ => 1, fun _ => -1, fun _ => 0])] ≠ [] := by
    rw [used_batch]; simp
  obtain ⟨S, hS⟩ := run_cov_ok (adaptive_lawful L (Fin 1)) (⟨1/5, 1/2, false⟩ : AdaParam) _ hne
  refine ⟨S, _, hS, ?_, run_location (adaptive_lawful L (Fin 1)) (⟨1/5, 1/2, false⟩ : AdaParam) _ hne⟩
  have e := ada_cov L _ _ S hS
  rw [used_batch] at e
  have h : S 0 0 = 4 / 5 := by rw [e]; exact demo_adaptive L
  refine ⟨fun i j => by fin_cases i; fin_cases j; rfl, fun x hx => ?_⟩
  have hx0 : x 0 ≠ 0 := by intro h0; apply hx; ext i; fin_cases i; exact h0
  have : quad S x = 4 / 5 * (x 0 * x 0) := by
    simp [quad, dotProduct, Matrix.mulVec, h]; ring
  rw [this]
  have := mul_self_pos.2 hx0
  linarith

end Precise
