import Verif.Lemmas.Bounded
import Verif.Props.Bounded
import Verif.Props.Ewa
import Verif.Props.Masking

/-!
# C97: a small change of the data is a small change of the estimate

Two histories whose observations used differ by at most `ε` in every entry, with all entries of size at most `B`.
-/

set_option linter.all false

open Matrix

namespace Precise

namespace Spec

/-- Two streams of the same length, observation by observation within `ε` in every variable. -/
def Near {ι : Type} (ε : ℝ) (xs ys : List (ι → ℝ)) : Prop := List.Forall₂ (fun x y => ∀ i, |x i - y i| ≤ ε) xs ys

/-- Every entry of every observation is of size at most `B`. -/
def Within {ι : Type} (B : ℝ) (xs : List (ι → ℝ)) : Prop := ∀ x ∈ xs, ∀ i, |x i| ≤ B

end Spec

open Spec Obj

variable {ι : Type} [Fintype ι] [DecidableEq ι]

/-- A relation kept by feeding near and bounded observations to both states holds of the states behind the attributes. -/
theorem fold_rel {σ τ : Type} (f : σ → (ι → ℝ) → σ) (g : τ → (ι → ℝ) → τ) (R : σ → τ → Prop) {B ε : ℝ}
    (hs : ∀ s t x y, (∀ i, |x i| ≤ B) → (∀ i, |y i| ≤ B) → (∀ i, |x i - y i| ≤ ε) → R s t → R (f s x) (g t y))
    {xs ys : List (ι → ℝ)} (hn : Near ε xs ys) (hx : Within B xs) (hy : Within B ys) {s : σ} {t : τ} (h0 : R s t) :
    R (xs.foldl f s) (ys.foldl g t) := by
  unfold Near at hn
  induction hn generalizing s t with
  | nil => exact h0
  | cons h _ ih =>
    exact ih (fun z hz => hx z (by simp [hz])) (fun z hz => hy z (by simp [hz]))
      (hs _ _ _ _ (hx _ (by simp)) (hy _ (by simp)) h h0)

/-- Difference of two products of deviations. -/
theorem prod_diff {a b a' b' B ε : ℝ} (hb : |b| ≤ 2 * B) (ha' : |a'| ≤ 2 * B) (h1 : |a - a'| ≤ 2 * ε) (h2 : |b - b'| ≤ 2 * ε) :
    |a * b - a' * b'| ≤ 8 * B * ε := by
  have e : a * b - a' * b' = (a - a') * b + a' * (b - b') := by ring
  rw [e]
  refine (abs_add_le _ _).trans ?_
  rw [abs_mul, abs_mul]
  have := mul_le_mul h1 hb (abs_nonneg _) (by linarith [abs_nonneg (a - a')])
  have := mul_le_mul ha' h2 (abs_nonneg _) (by linarith [abs_nonneg a'])
  linarith

theorem abs_mix_sub {r x x' y y' E : ℝ} (h0 : 0 ≤ r) (h1 : r ≤ 1) (hx : |x - x'| ≤ E) (hy : |y - y'| ≤ E) :
    |((1 - r) * x + r * y) - ((1 - r) * x' + r * y')| ≤ E := by
  have e : ((1 - r) * x + r * y) - ((1 - r) * x' + r * y') = (1 - r) * (x - x') + r * (y - y') := by ring
  rw [e]; exact abs_mix h0 h1 hx hy

theorem dev_diff {x m x' m' ε : ℝ} (h : |x - x'| ≤ ε) (hm : |m - m'| ≤ ε) : |(x - m) - (x' - m')| ≤ 2 * ε := by
  have e : (x - m) - (x' - m') = (x - x') - (m - m') := by ring
  rw [e]; exact (abs_sub _ _).trans (by linarith)

/-! ## EWA -/

/-- Two running states that have seen near streams. -/
structure NearE (B ε r : ℝ) (s t : EwaState ι ℝ) : Prop where
  left : SmallE B r s
  right : SmallE B r t
  n : s.nSamples = t.nSamples
  burn : s.nBurn = t.nBurn
  mean : ∀ i, |s.mean i - t.mean i| ≤ ε
  cov : ∀ i j, |s.cov i j - t.cov i j| ≤ 8 * B * ε

theorem nearE_init {B ε r : ℝ} (hB : 0 ≤ B) (he : 0 ≤ ε) : NearE B ε r (ewaInit r : EwaState ι ℝ) (ewaInit r) where
  left := smallE_init hB r
  right := smallE_init hB r
  n := rfl
  burn := rfl
  mean i := by simpa using he
  cov i j := by simp; positivity

theorem nearE_update {B ε r : ℝ} (h0 : 0 ≤ r) (h1 : r ≤ 1) {s t : EwaState ι ℝ} {x y : ι → ℝ}
    (hx : ∀ i, |x i| ≤ B) (hy : ∀ i, |y i| ≤ B) (hxy : ∀ i, |x i - y i| ≤ ε) (h : NearE B ε r s t) :
    NearE B ε r (ewaUpdate s x) (ewaUpdate t y) := by
  have hl := smallE_update h0 h1 h.left hx
  have hr := smallE_update h0 h1 h.right hy
  have hp : ∀ i j, |(x i - s.mean i) * (x j - s.mean j) - (y i - t.mean i) * (y j - t.mean j)| ≤ 8 * B * ε := fun i j =>
    prod_diff (dev_abs (hx j) (h.left.1.mean j)) (dev_abs (hy i) (h.right.1.mean i)) (dev_diff (hxy i) (h.mean i)) (dev_diff (hxy j) (h.mean j))
  by_cases hb : s.nSamples < s.nBurn
  · have hbt : t.nSamples < t.nBurn := by rw [← h.n, ← h.burn]; exact hb
    have es : ewaUpdate s x = { s with toEmpState := empUpdate s.toEmpState x } := by unfold ewaUpdate; rw [if_pos hb]; rfl
    have et : ewaUpdate t y = { t with toEmpState := empUpdate t.toEmpState y } := by unfold ewaUpdate; rw [if_pos hbt]; rfl
    refine ⟨hl, hr, ?_, ?_, ?_, ?_⟩
    · rw [es, et]; show s.nSamples + 1 = t.nSamples + 1; rw [h.n]
    · rw [es, et]; exact h.burn
    · intro i
      rw [es, et]
      show |(empUpdate s.toEmpState x).mean i - (empUpdate t.toEmpState y).mean i| ≤ ε
      rw [empUpdate_mean, empUpdate_mean, h.n]
      have hn : (0:ℝ) < (t.nSamples : ℝ) + 1 := by positivity
      exact abs_mix_sub (by positivity) (by rw [div_le_one hn]; have : (0:ℝ) ≤ t.nSamples := by positivity
                                            linarith) (h.mean i) (hxy i)
    · intro i j
      rw [es, et]
      show |(empUpdate s.toEmpState x).cov i j - (empUpdate t.toEmpState y).cov i j| ≤ _
      rw [empUpdate_cov, empUpdate_cov, h.n]
      simp only [Matrix.add_apply, Matrix.smul_apply, outer, of_apply, Pi.sub_apply, smul_eq_mul]
      set n : ℝ := (t.nSamples : ℝ)
      have hn0 : 0 ≤ n := by positivity
      have e : n / (n + 1) * s.cov i j + n / (n + 1) ^ 2 * ((x i - s.mean i) * (x j - s.mean j))
          - (n / (n + 1) * t.cov i j + n / (n + 1) ^ 2 * ((y i - t.mean i) * (y j - t.mean j)))
          = n / (n + 1) * (s.cov i j - t.cov i j) + n / (n + 1) ^ 2 * ((x i - s.mean i) * (x j - s.mean j) - (y i - t.mean i) * (y j - t.mean j)) := by ring
      rw [e]
      refine (abs_add_le _ _).trans ?_
      rw [abs_mul, abs_mul, abs_of_nonneg (by positivity : 0 ≤ n / (n + 1)), abs_of_nonneg (by positivity : 0 ≤ n / (n + 1) ^ 2)]
      have a1 := mul_le_mul_of_nonneg_left (h.cov i j) (by positivity : 0 ≤ n / (n + 1))
      have a2 := mul_le_mul_of_nonneg_left (hp i j) (by positivity : 0 ≤ n / (n + 1) ^ 2)
      have hE : 0 ≤ 8 * B * ε := (abs_nonneg _).trans (hp i j)
      have a3 : n / (n + 1) + n / (n + 1) ^ 2 ≤ 1 := by
        rw [div_add_div _ _ (by positivity) (by positivity), div_le_one (by positivity)]; nlinarith [mul_nonneg hn0 hn0, mul_nonneg (mul_nonneg hn0 hn0) hn0]
      nlinarith
  · have hbt : ¬ t.nSamples < t.nBurn := by rw [← h.n, ← h.burn]; exact hb
    have es : ewaUpdate s x = { s with toEmpState := ewaBlend s.r s.toEmpState x } := by unfold ewaUpdate; rw [if_neg hb]
    have et : ewaUpdate t y = { t with toEmpState := ewaBlend t.r t.toEmpState y } := by unfold ewaUpdate; rw [if_neg hbt]
    refine ⟨hl, hr, ?_, ?_, ?_, ?_⟩
    · rw [es, et]; show s.nSamples + 1 = t.nSamples + 1; rw [h.n]
    · rw [es, et]; exact h.burn
    · intro i
      rw [es, et]
      show |(ewaBlend s.r s.toEmpState x).mean i - (ewaBlend t.r t.toEmpState y).mean i| ≤ ε
      rw [h.left.2, h.right.2]
      exact abs_mix_sub h0 h1 (h.mean i) (hxy i)
    · intro i j
      rw [es, et]
      show |(ewaBlend s.r s.toEmpState x).cov i j - (ewaBlend t.r t.toEmpState y).cov i j| ≤ _
      rw [h.left.2, h.right.2]
      simp only [ewaBlend, Matrix.add_apply, Matrix.smul_apply, outer, of_apply, smul_eq_mul]
      exact abs_mix_sub h0 h1 (h.cov i j) (hp i j)

theorem near_nonneg {ε : ℝ} {xs ys : List (ι → ℝ)} (i : ι) (h : Near ε xs ys) (hne : xs ≠ []) : 0 ≤ ε := by
  cases h with
  | nil => exact absurd rfl hne
  | cons h _ => exact (abs_nonneg _).trans (h i)

theorem within_nonneg {B : ℝ} {xs : List (ι → ℝ)} (i : ι) (h : Within B xs) (hne : xs ≠ []) : 0 ≤ B := by
  obtain ⟨x, l, rfl⟩ := List.exists_cons_of_ne_nil hne
  exact (abs_nonneg _).trans (h x (by simp) i)

theorem near_ewa {r : ℝ} (h0 : 0 ≤ r) (h1 : r ≤ 1) {xs ys : List (ι → ℝ)} {B ε : ℝ} (hB : 0 ≤ B) (he : 0 ≤ ε)
    (hn : Near ε xs ys) (hx : Within B xs) (hy : Within B ys) : NearE B ε r (ewaFold r xs) (ewaFold r ys) :=
  fold_rel ewaUpdate ewaUpdate (NearE B ε r) (fun s t x y a b c d => nearE_update h0 h1 a b c d) hn hx hy (nearE_init hB he)

/-- C97: EwaCovariance, rate in [0,1]: `location_` moves by at most `ε`, every entry of `covariance_` by at most `8 B ε`, however long
the streams. -/
theorem C97_ewa (p : RParam ℝ) (h0 : 0 ≤ p.r) (h1 : p.r ≤ 1) (calls calls' : List (Call ι ℝ)) (B ε : ℝ)
    (hn : Near ε (used p.diff calls) (used p.diff calls')) (hx : Within B (used p.diff calls)) (hy : Within B (used p.diff calls'))
    (m m' : ι → ℝ) (hm : ((new (ewaCls ι ℝ) p).run calls).location = .ok m) (hm' : ((new (ewaCls ι ℝ) p).run calls').location = .ok m')
    (c c' : Matrix ι ι ℝ) (hc : ((new (ewaCls ι ℝ) p).run calls).covariance = .ok c) (hc' : ((new (ewaCls ι ℝ) p).run calls').covariance = .ok c')
    (i j : ι) : |m i - m' i| ≤ ε ∧ |c i j - c' i j| ≤ 8 * B * ε := by
  obtain ⟨hne, rfl⟩ := run_location_inv (ewa_lawful ι ℝ) p calls m hm
  obtain ⟨_, rfl⟩ := run_location_inv (ewa_lawful ι ℝ) p calls' m' hm'
  obtain ⟨_, rfl⟩ := ewa_attrs_inv p calls c hc
  obtain ⟨_, rfl⟩ := ewa_attrs_inv p calls' c' hc'
  have hne : used p.diff calls ≠ [] := hne
  have h := near_ewa h0 h1 (within_nonneg i hx hne) (near_nonneg i hn hne) hn hx hy
  exact ⟨h.mean i, h.cov i j⟩

/-! ## Empirical -/

theorem near_ofFn {ε : ℝ} {xs ys : List (ι → ℝ)} (h : Near ε xs ys) :
    ∃ (n : ℕ) (X Y : Fin n → ι → ℝ), xs = List.ofFn X ∧ ys = List.ofFn Y ∧ ∀ t i, |X t i - Y t i| ≤ ε := by
  unfold Near at h
  have hl := h.length_eq
  refine ⟨xs.length, xs.get, fun t => ys.get (t.cast hl), (List.ofFn_get xs).symm, ?_, fun t i => ?_⟩
  · apply List.ext_get
    · simp [hl]
    · intro k h1 h2; simp
  · have := List.forall₂_iff_get.1 h
    exact this.2 t t.2 (by omega) i

theorem covOf_ofFn {n : ℕ} (X : Fin n → ι → ℝ) (i j : ι) :
    covOf (List.ofFn X) i j = (∑ t, (X t i - (∑ u, X u i) / n) * (X t j - (∑ u, X u j) / n)) / n := by
  simp only [covOf, of_apply, meanOf, List.map_ofFn, List.sum_ofFn, List.length_ofFn, Function.comp]

theorem sum_centered_sq {n : ℕ} (hn : 0 < n) (a : Fin n → ℝ) {A : ℝ} (h : ∀ t, |a t| ≤ A) :
    ∑ t, (a t - (∑ u, a u) / n) ^ 2 ≤ n * A ^ 2 := by
  have hn' : (n:ℝ) ≠ 0 := by positivity
  have e : ∑ t, (a t - (∑ u, a u) / n) ^ 2 = ∑ t, a t ^ 2 - (∑ u, a u) ^ 2 / n := by
    simp only [sub_sq, Finset.sum_add_distrib, Finset.sum_sub_distrib]
    rw [← Finset.sum_mul, ← Finset.mul_sum]
    simp; field_simp; ring
  have h1 : ∑ t, a t ^ 2 ≤ n * A ^ 2 := by
    calc ∑ t, a t ^ 2 ≤ ∑ t : Fin n, A ^ 2 := Finset.sum_le_sum fun t _ => by
          rw [← sq_abs (a t)]; exact pow_le_pow_left₀ (abs_nonneg _) (h t) 2
      _ = _ := by simp
  have h2 : 0 ≤ (∑ u, a u) ^ 2 / n := by positivity
  linarith

theorem abs_sum_mul {n : ℕ} (a b : Fin n → ℝ) {A B : ℝ} (hA : 0 ≤ A) (hB : 0 ≤ B) (ha : ∑ t, a t ^ 2 ≤ n * A ^ 2) (hb : ∑ t, b t ^ 2 ≤ n * B ^ 2) :
    |∑ t, a t * b t| ≤ n * (A * B) := by
  apply abs_le_of_sq_le_sq _ (by positivity)
  refine (Finset.sum_mul_sq_le_sq_mul_sq _ a b).trans ?_
  have := mul_le_mul ha hb (Finset.sum_nonneg fun t _ => sq_nonneg _) (by positivity)
  linarith [this, (by ring : (n:ℝ) * A ^ 2 * (n * B ^ 2) = (n * (A * B)) ^ 2)]

/-- C97: EmpiricalCovariance: `location_` moves by at most `ε`, every entry of `covariance_` by at most `2 B ε`. -/
theorem C97_empirical (d : Bool) (calls calls' : List (Call ι ℝ)) (B ε : ℝ)
    (hn : Near ε (used d calls) (used d calls')) (hx : Within B (used d calls)) (hy : Within B (used d calls'))
    (m m' : ι → ℝ) (hm : ((new (empiricalCls ι ℝ) d).run calls).location = .ok m) (hm' : ((new (empiricalCls ι ℝ) d).run calls').location = .ok m')
    (c c' : Matrix ι ι ℝ) (hc : ((new (empiricalCls ι ℝ) d).run calls).covariance = .ok c)
    (hc' : ((new (empiricalCls ι ℝ) d).run calls').covariance = .ok c')
    (i j : ι) : |m i - m' i| ≤ ε ∧ |c i j - c' i j| ≤ 2 * B * ε := by
  have hne : used d calls ≠ [] := (run_covariance_inv (empirical_lawful ι ℝ) d calls c hc).1
  have hne' : used d calls' ≠ [] := (run_covariance_inv (empirical_lawful ι ℝ) d calls' c' hc').1
  rw [(C15_batch d calls hne).1] at hm
  rw [(C15_batch d calls' hne').1] at hm'
  rw [(C15_batch d calls hne).2.1] at hc
  rw [(C15_batch d calls' hne').2.1] at hc'
  cases hm; cases hm'; cases hc; cases hc'
  have hB := within_nonneg i hx hne
  have he := near_nonneg i hn hne
  obtain ⟨n, X, Y, eX, eY, hXY⟩ := near_ofFn hn
  rw [eX] at hx hne ⊢
  rw [eY] at hy ⊢
  have hn0 : 0 < n := by
    rcases Nat.eq_zero_or_pos n with rfl | h
    · simp at hne
    · exact h
  have hn' : (0:ℝ) < n := by exact_mod_cast hn0
  have hX : ∀ t i, |X t i| ≤ B := fun t i => hx (X t) (by simp) i
  have hY : ∀ t i, |Y t i| ≤ B := fun t i => hy (Y t) (by simp) i
  constructor
  · simp only [meanOf, List.map_ofFn, List.sum_ofFn, List.length_ofFn, Function.comp]
    rw [← sub_div, ← Finset.sum_sub_distrib, abs_div, abs_of_pos hn', div_le_iff₀ hn']
    refine (Finset.abs_sum_le_sum_abs _ _).trans ?_
    calc ∑ t, |X t i - Y t i| ≤ ∑ t : Fin n, ε := Finset.sum_le_sum fun t _ => hXY t i
      _ = _ := by simp; ring
  · rw [covOf_ofFn, covOf_ofFn, ← sub_div, abs_div, abs_of_pos hn', div_le_iff₀ hn', ← Finset.sum_sub_distrib]
    set D : Fin n → ι → ℝ := fun t i => X t i - Y t i
    have e : ∀ t, (X t i - (∑ u, X u i) / n) * (X t j - (∑ u, X u j) / n) - (Y t i - (∑ u, Y u i) / n) * (Y t j - (∑ u, Y u j) / n)
        = (D t i - (∑ u, D u i) / n) * (X t j - (∑ u, X u j) / n) + (Y t i - (∑ u, Y u i) / n) * (D t j - (∑ u, D u j) / n) := by
      intro t
      have h1 : ∀ i, ∑ u, D u i = ∑ u, X u i - ∑ u, Y u i := fun i => Finset.sum_sub_distrib _ _
      rw [h1, h1]; simp only [D]; ring
    rw [Finset.sum_congr rfl fun t _ => e t, Finset.sum_add_distrib]
    refine (abs_add_le _ _).trans ?_
    have a1 := abs_sum_mul _ _ he hB (sum_centered_sq hn0 (fun t => D t i) fun t => hXY t i) (sum_centered_sq hn0 (fun t => X t j) fun t => hX t j)
    have a2 := abs_sum_mul _ _ hB he (sum_centered_sq hn0 (fun t => Y t i) fun t => hY t i) (sum_centered_sq hn0 (fun t => D t j) fun t => hXY t j)
    linarith

/-! ## Diagonal -/

structure NearD (B ε r : ℝ) (s t : DiagState ι ℝ) : Prop where
  left : SmallD B r s
  right : SmallD B r t
  n : s.nSamples = t.nSamples
  burn : s.nBurn = t.nBurn
  mean : ∀ i, |s.mean i - t.mean i| ≤ ε
  var : ∀ i, |s.var i - t.var i| ≤ 8 * B * ε

theorem nearD_update {B ε r : ℝ} (h0 : 0 ≤ r) (h1 : r ≤ 1) {s t : DiagState ι ℝ} {x y : ι → ℝ}
    (hx : ∀ i, |x i| ≤ B) (hy : ∀ i, |y i| ≤ B) (hxy : ∀ i, |x i - y i| ≤ ε) (h : NearD B ε r s t) :
    NearD B ε r (diagUpdate s x) (diagUpdate t y) := by
  have hl := smallD_update h0 h1 h.left hx
  have hr := smallD_update h0 h1 h.right hy
  have hp : ∀ i, |(x i - s.mean i) * (x i - s.mean i) - (y i - t.mean i) * (y i - t.mean i)| ≤ 8 * B * ε := fun i =>
    prod_diff (dev_abs (hx i) (h.left.1.mean i)) (dev_abs (hy i) (h.right.1.mean i)) (dev_diff (hxy i) (h.mean i)) (dev_diff (hxy i) (h.mean i))
  have key : ∀ (k : ℕ) (a b a' b' E : ℝ), |a - a'| ≤ E → |b - b'| ≤ E → |(a + (b - a) / ((k + 1 : ℕ) : ℝ)) - (a' + (b' - a') / ((k + 1 : ℕ) : ℝ))| ≤ E := by
    intro k a b a' b' E ha hb
    have hk : (0:ℝ) < (k + 1 : ℕ) := by positivity
    have := abs_mix_sub (r := 1 / ((k + 1 : ℕ) : ℝ)) (by positivity) (by rw [div_le_one hk]; push_cast; linarith [(Nat.cast_nonneg k : (0:ℝ) ≤ k)]) ha hb
    have e : ∀ a b : ℝ, a + (b - a) / ((k + 1 : ℕ) : ℝ) = (1 - 1 / ((k + 1 : ℕ) : ℝ)) * a + 1 / ((k + 1 : ℕ) : ℝ) * b := by intro a b; field_simp; ring
    rw [e, e]; exact this
  refine ⟨hl, hr, ?_, ?_, ?_, ?_⟩
  · unfold diagUpdate; simp only [h.n, h.burn]; split <;> rfl
  · unfold diagUpdate; simp only [h.n, h.burn]; split <;> rfl
  · intro i
    unfold diagUpdate
    simp only [h.n, h.burn, h.left.2, h.right.2]
    split
    · exact key _ _ _ _ _ _ (h.mean i) (hxy i)
    · exact abs_mix_sub h0 h1 (h.mean i) (hxy i)
  · intro i
    unfold diagUpdate
    simp only [h.n, h.burn, h.left.2, h.right.2]
    split
    · exact key _ _ _ _ _ _ (h.var i) (hp i)
    · exact abs_mix_sub h0 h1 (h.var i) (hp i)

/-- C97: DiagonalCovariance, rate in [0,1]: every entry of `covariance_` moves by at most `8 B ε`. -/
theorem C97_diagonal (p : RParam ℝ) (h0 : 0 ≤ p.r) (h1 : p.r ≤ 1) (calls calls' : List (Call ι ℝ)) (B ε : ℝ)
    (hn : Near ε (used p.diff calls) (used p.diff calls')) (hx : Within B (used p.diff calls)) (hy : Within B (used p.diff calls'))
    (c c' : Matrix ι ι ℝ) (hc : ((new (diagonalCls ι ℝ) p).run calls).covariance = .ok c)
    (hc' : ((new (diagonalCls ι ℝ) p).run calls').covariance = .ok c')
    (i j : ι) : |c i j - c' i j| ≤ 8 * B * ε := by
  obtain ⟨hne, rfl⟩ := diagonal_attrs p calls c hc
  obtain ⟨_, rfl⟩ := diagonal_attrs p calls' c' hc'
  have hB := within_nonneg i hx hne
  have he := near_nonneg i hn hne
  have h : NearD B ε p.r (diagFold p.r (used p.diff calls)) (diagFold p.r (used p.diff calls')) :=
    fold_rel diagUpdate diagUpdate (NearD B ε p.r) (fun s t x y a b c d => nearD_update h0 h1 a b c d) hn hx hy
      ⟨⟨⟨fun i => by simpa [diagInit] using hB, fun i => by simp [diagInit], fun i => by simp [diagInit]; positivity⟩, rfl⟩,
       ⟨⟨fun i => by simpa [diagInit] using hB, fun i => by simp [diagInit], fun i => by simp [diagInit]; positivity⟩, rfl⟩, rfl, rfl,
       fun i => by simpa using he, fun i => by simp; positivity⟩
  by_cases hij : i = j
  · subst hij; rw [diagonal_apply_eq, diagonal_apply_eq]; exact h.var i
  · rw [diagonal_apply_ne _ hij, diagonal_apply_ne _ hij]; simp; positivity

/-! ## The other locations -/

/-- C97: every class whose `location_` is the EWA one (C22) moves it by at most `ε`: Diagonal, LedoitWolf, OAS, Shrunk, PartialMoments, Tyler,
Geodesic. -/
theorem C97_locations (L : Lapack) (p : RParam ℝ) (h0 : 0 ≤ p.r) (h1 : p.r ≤ 1) (delta : ℝ) (target : String) (calls calls' : List (Call ι ℝ)) (B ε : ℝ)
    (hn : Near ε (used p.diff calls) (used p.diff calls')) (hx : Within B (used p.diff calls)) (hy : Within B (used p.diff calls')) (m m' : ι → ℝ)
    (h : (((new (diagonalCls ι ℝ) p).run calls).location = .ok m ∧ ((new (diagonalCls ι ℝ) p).run calls').location = .ok m') ∨
      (((new (ledoitWolfCls ι ℝ) p).run calls).location = .ok m ∧ ((new (ledoitWolfCls ι ℝ) p).run calls').location = .ok m') ∨
      (((new (oasCls ι ℝ) p).run calls).location = .ok m ∧ ((new (oasCls ι ℝ) p).run calls').location = .ok m') ∨
      (((new (shrunkCls ι) ⟨p.r, delta, target, p.diff⟩).run calls).location = .ok m ∧
        ((new (shrunkCls ι) ⟨p.r, delta, target, p.diff⟩).run calls').location = .ok m') ∨
      (((new (partialMomentsCls L ι) p).run calls).location = .ok m ∧ ((new (partialMomentsCls L ι) p).run calls').location = .ok m') ∨
      (((new (tylerCls L ι) p).run calls).location = .ok m ∧ ((new (tylerCls L ι) p).run calls').location = .ok m') ∨
      (((new (geodesicCls L ι) p).run calls).location = .ok m ∧ ((new (geodesicCls L ι) p).run calls').location = .ok m')) (i : ι) :
    |m i - m' i| ≤ ε := by
  have key : ((new (ewaCls ι ℝ) p).run calls).location = .ok m ∧ ((new (ewaCls ι ℝ) p).run calls').location = .ok m' := by
    obtain ⟨a1, a2, a3⟩ := C22_same_location p calls
    obtain ⟨b1, b2, b3⟩ := C22_same_location p calls'
    obtain ⟨a4, a5, a6, a7⟩ := C22_same_location_real L p delta target calls
    obtain ⟨b4, b5, b6, b7⟩ := C22_same_location_real L p delta target calls'
    rw [a1, a2, a3, a4, a5, a6, a7, b1, b2, b3, b4, b5, b6, b7] at h
    rcases h with h | h | h | h | h | h | h <;> exact h
  obtain ⟨hm, hm'⟩ := key
  have hne : used p.diff calls ≠ [] := (run_location_inv (ewa_lawful ι ℝ) p calls m hm).1
  have hne' : used p.diff calls' ≠ [] := (run_location_inv (ewa_lawful ι ℝ) p calls' m' hm').1
  exact (C97_ewa p h0 h1 calls calls' B ε hn hx hy m m' hm hm' _ _ (ewa_attrs p calls hne).2 (ewa_attrs p calls' hne').2 i i).1

/-- C97: and so do BlockCovariance, SchurCovariance, SchurLedoitWolfCovariance and SchurConditionalCovariance. -/
theorem C97_locations_blocks (L : Lapack) {d : ℕ} (hd : 1 ≤ d) (p : RParam ℝ) (h0 : 0 ≤ p.r) (h1 : p.r ≤ 1) (nb : ℤ) (gamma : ℝ) (interp : String)
    (calls calls' : List (Call (Fin d) ℝ)) (B ε : ℝ)
    (hn : Near ε (used p.diff calls) (used p.diff calls')) (hx : Within B (used p.diff calls)) (hy : Within B (used p.diff calls')) (m m' : Fin d → ℝ)
    (h : (((new (blockCls L d) ⟨p.r, nb, p.diff⟩).run calls).location = .ok m ∧ ((new (blockCls L d) ⟨p.r, nb, p.diff⟩).run calls').location = .ok m') ∨
      (((new (schurCls L d) ⟨p.r, nb, gamma, interp, p.diff⟩).run calls).location = .ok m ∧
        ((new (schurCls L d) ⟨p.r, nb, gamma, interp, p.diff⟩).run calls').location = .ok m') ∨
      (((new (schurLWCls L d) ⟨p.r, nb, p.diff⟩).run calls).location = .ok m ∧ ((new (schurLWCls L d) ⟨p.r, nb, p.diff⟩).run calls').location = .ok m') ∨
      (((new (schurCondCls L d) ⟨p.r, nb, p.diff⟩).run calls).location = .ok m ∧ ((new (schurCondCls L d) ⟨p.r, nb, p.diff⟩).run calls').location = .ok m'))
    (i : Fin d) : |m i - m' i| ≤ ε := by
  have key : ((new (ewaCls (Fin d) ℝ) p).run calls).location = .ok m ∧ ((new (ewaCls (Fin d) ℝ) p).run calls').location = .ok m' := by
    obtain ⟨a1, a2, a3, a4⟩ := C22_same_location_blocks L hd p nb gamma interp calls
    obtain ⟨b1, b2, b3, b4⟩ := C22_same_location_blocks L hd p nb gamma interp calls'
    rw [a1, a2, a3, a4, b1, b2, b3, b4] at h
    rcases h with h | h | h | h <;> exact h
  obtain ⟨hm, hm'⟩ := key
  have hne : used p.diff calls ≠ [] := (run_location_inv (ewa_lawful (Fin d) ℝ) p calls m hm).1
  have hne' : used p.diff calls' ≠ [] := (run_location_inv (ewa_lawful (Fin d) ℝ) p calls' m' hm').1
  exact (C97_ewa p h0 h1 calls calls' B ε hn hx hy m m' hm hm' _ _ (ewa_attrs p calls hne).2 (ewa_attrs p calls' hne').2 i i).1

/-! ## How good the constants are, and what is not stable -/

theorem tryInvert_fin1 (L : Lapack) {a : Matrix (Fin 1) (Fin 1) ℝ} (h : a 0 0 ≠ 0) : (tryInvert L a) 0 0 = 1 / a 0 0 := by
  unfold tryInvert
  rw [if_neg (by rwa [Matrix.det_fin_one]), Matrix.inv_def, Matrix.adjugate_fin_one, Matrix.det_fin_one]
  simp

theorem two_rows_var (a : ℝ) (b : ℝ) : ((new (empiricalCls (Fin 1) ℝ) false).run [.partialFit (.batch [fun _ => a, fun _ => b])]).covariance
    = .ok (Matrix.of fun _ _ => (a - b) ^ 2 / 4) := by
  have hu : used false [Call.partialFit (Input.batch [fun (_ : Fin 1) => a, fun _ => b])] = [fun _ => a, fun _ => b] := by
    simp [used, effective, rowsSinceFit, rowsOf]
  rw [(C15_batch false _ (by rw [hu]; simp)).2.1, hu]
  congr 1
  ext i j
  simp only [covOf, of_apply, meanOf, List.map_cons, List.map_nil, List.sum_cons, List.sum_nil, List.length_cons, List.length_nil]
  push_cast; ring

/-- C97: `2 B ε` is the right constant: the rows `B, -B` moved by `ε` towards zero lose `2 B ε - ε²` of variance. -/
theorem C97_empirical_sharp (B ε : ℝ) (h0 : 0 ≤ ε) (h1 : ε ≤ B) :
    Near ε [fun _ : Fin 1 => B, fun _ => -B] [fun _ => B - ε, fun _ => -(B - ε)] ∧
    Within B [fun _ : Fin 1 => B, fun _ => -B] ∧ Within B [fun _ : Fin 1 => B - ε, fun _ => -(B - ε)] ∧
    ∃ c c', ((new (empiricalCls (Fin 1) ℝ) false).run [.partialFit (.batch [fun _ => B, fun _ => -B])]).covariance = .ok c ∧
      ((new (empiricalCls (Fin 1) ℝ) false).run [.partialFit (.batch [fun _ => B - ε, fun _ => -(B - ε)])]).covariance = .ok c' ∧
      c 0 0 - c' 0 0 = 2 * B * ε - ε ^ 2 := by
  have hB : 0 ≤ B := h0.trans h1
  refine ⟨?_, ?_, ?_, _, _, two_rows_var _ _, two_rows_var _ _, ?_⟩
  · refine List.Forall₂.cons (fun i => ?_) (List.Forall₂.cons (fun i => ?_) List.Forall₂.nil)
    · rw [abs_le]; constructor <;> linarith
    · rw [abs_le]; constructor <;> linarith
  · intro x hx i
    simp only [List.mem_cons, List.not_mem_nil, or_false] at hx
    rcases hx with rfl | rfl <;> rw [abs_le] <;> constructor <;> linarith
  · intro x hx i
    simp only [List.mem_cons, List.not_mem_nil, or_false] at hx
    rcases hx with rfl | rfl <;> rw [abs_le] <;> constructor <;> linarith
  · simp only [of_apply]; ring

/-- C97: `precision_` has no such bound: for every `ε > 0` and every `M` there are two streams of two observations, within `ε` of each
other (and of zero), both with an invertible covariance, whose precisions differ by more than `M`. -/
theorem C97_precision_unstable (L : Lapack) (ε : ℝ) (he : 0 < ε) (M : ℝ) :
    ∃ xs ys : List (Fin 1 → ℝ), Near ε xs ys ∧ Within ε xs ∧ Within ε ys ∧ ∃ q q',
      ((new (empiricalCls (Fin 1) ℝ) false).run [.partialFit (.batch xs)]).precision L = .ok q ∧
      ((new (empiricalCls (Fin 1) ℝ) false).run [.partialFit (.batch ys)]).precision L = .ok q' ∧ M < q 0 0 - q' 0 0 := by
  set d := min ε (1 / (1 + |M|)) / 2 with hd
  have hM : (0:ℝ) < 1 + |M| := by positivity
  have d0 : 0 < d := by have := lt_min he (div_pos one_pos hM); rw [hd]; linarith
  have d1 : 2 * d ≤ ε := by have := min_le_left ε (1 / (1 + |M|)); rw [hd]; linarith
  have d2 : 2 * d ≤ 1 / (1 + |M|) := by have := min_le_right ε (1 / (1 + |M|)); rw [hd]; linarith
  refine ⟨[fun _ => d, fun _ => 0], [fun _ => 2 * d, fun _ => 0], ?_, ?_, ?_, ?_⟩
  · refine List.Forall₂.cons (fun i => ?_) (List.Forall₂.cons (fun i => ?_) List.Forall₂.nil)
    · rw [abs_le]; constructor <;> linarith
    · simp; exact he.le
  · intro x hx i
    simp only [List.mem_cons, List.not_mem_nil, or_false] at hx
    rcases hx with rfl | rfl <;> rw [abs_le] <;> constructor <;> linarith
  · intro x hx i
    simp only [List.mem_cons, List.not_mem_nil, or_false] at hx
    rcases hx with rfl | rfl <;> rw [abs_le] <;> constructor <;> linarith
  · unfold Obj.precision
    rw [two_rows_var, two_rows_var]
    refine ⟨_, _, rfl, rfl, ?_⟩
    have n1 : (Matrix.of fun _ _ => (d - 0) ^ 2 / 4 : Matrix (Fin 1) (Fin 1) ℝ) 0 0 ≠ 0 := by simp only [of_apply, sub_zero]; positivity
    have n2 : (Matrix.of fun _ _ => (2 * d - 0) ^ 2 / 4 : Matrix (Fin 1) (Fin 1) ℝ) 0 0 ≠ 0 := by simp only [of_apply, sub_zero]; positivity
    rw [tryInvert_fin1 L n1, tryInvert_fin1 L n2]
    simp only [of_apply, sub_zero]
    have e' : (1 / (d ^ 2 / 4) - 1 / ((2 * d) ^ 2 / 4) : ℝ) = 3 / d ^ 2 := by field_simp; ring
    rw [e']
    rw [lt_div_iff₀ (by positivity)]
    rw [le_div_iff₀ hM] at d2
    have hMa : M ≤ |M| := le_abs_self M
    have hMn : 0 ≤ |M| := abs_nonneg M
    have dl : 2 * d ≤ 1 := by nlinarith
    have : |M| * d ≤ 1 := by nlinarith
    have : |M| * d ^ 2 ≤ 1 := by nlinarith
    nlinarith [sq_nonneg d]

/-- Non-vacuous: C97_ewa on the demo rows and the same rows moved by 1/10. -/
example : ∃ c c' : Matrix (Fin 2) (Fin 2) ℝ,
    ((new (ewaCls (Fin 2) ℝ) (⟨1/20, false⟩ : RParam ℝ)).run [.partialFit (.batch demoRows)]).covariance = .ok c ∧
    ((new (ewaCls (Fin 2) ℝ) (⟨1/20, false⟩ : RParam ℝ)).run [.partialFit (.batch (demoRows.map fun x i => x i + 1/10))]).covariance = .ok c' ∧
    |c 0 1 - c' 0 1| ≤ 8 * 3 * (1/10) := by
  have hne : used false [Call.partialFit (.batch demoRows)] ≠ [] := by rw [demo_used]; simp [demoRows]
  have hu : used false [Call.partialFit (.batch (demoRows.map fun x i => x i + 1/10))] = demoRows.map fun x i => x i + 1/10 := by
    simp [used, effective, rowsSinceFit, rowsOf]
  have hne' : used false [Call.partialFit (.batch (demoRows.map fun x i => x i + 1/10))] ≠ [] := by rw [hu]; simp [demoRows]
  have hb : Within 2 demoRows := by have := demo_bound; rw [demo_used] at this; exact this
  have hx : Within 3 (used false [Call.partialFit (.batch demoRows)]) := by
    rw [demo_used]; intro x hx i; exact (hb x hx i).trans (by norm_num)
  have hy : Within 3 (used false [Call.partialFit (.batch (demoRows.map fun x i => x i + 1/10))]) := by
    rw [hu]; intro x hx i
    obtain ⟨y, hy, rfl⟩ := List.mem_map.1 hx
    have := hb y hy i
    rw [abs_le] at this ⊢
    constructor <;> linarith
  have hn : Near (1/10) (used false [Call.partialFit (.batch demoRows)]) (used false [Call.partialFit (.batch (demoRows.map fun x i => x i + 1/10))]) := by
    rw [demo_used, hu]; unfold Near
    rw [List.forall₂_map_right_iff]
    exact List.forall₂_same.2 fun x _ i => by rw [abs_le]; constructor <;> linarith
  refine ⟨_, _, (ewa_attrs ⟨1/20, false⟩ _ hne).2, (ewa_attrs ⟨1/20, false⟩ _ hne').2, ?_⟩
  exact (C97_ewa ⟨1/20, false⟩ (by norm_num) (by norm_num) _ _ 3 (1/10) hn hx hy _ _
    (ewa_attrs ⟨1/20, false⟩ _ hne).1 (ewa_attrs ⟨1/20, false⟩ _ hne').1 _ _ (ewa_attrs ⟨1/20, false⟩ _ hne).2 (ewa_attrs ⟨1/20, false⟩ _ hne').2 0 1).2

end Precise
