import Verif.Props.RoundingDouble
import Verif.Props.Dynamic

/-!
# C75, C76: how far rounding can push a covariance out of the positive semi-definite cone
-/

set_option linter.all false

open Matrix

namespace Precise

open Spec Obj

variable {ι : Type} [Fintype ι] {R : Rounding}

/-- The matrix of the real numbers denoted by the entries. -/
def valMat (c : Matrix ι ι (Fl R)) : Matrix ι ι ℝ := Matrix.of fun i j => (c i j).val

theorem sum_abs_sq (x : ι → ℝ) : (∑ i, |x i|) ^ 2 ≤ (Fintype.card ι : ℝ) * normSq x := by
  have h := sq_sum_le_card_mul_sum_sq (s := Finset.univ) (f := fun i => |x i|)
  simp only [sq_abs, Finset.card_univ] at h
  have e : ∑ i, x i ^ 2 = normSq x := by
    unfold normSq; exact Finset.sum_congr rfl fun i _ => sq (x i)
  rwa [e] at h

theorem quad_entry_bound (E : Matrix ι ι ℝ) (δ : ℝ) (h : ∀ i j, |E i j| ≤ δ) (h0 : 0 ≤ δ) (x : ι → ℝ) :
    |quad E x| ≤ δ * Fintype.card ι * normSq x := by
  have e : quad E x = ∑ i, ∑ j, x i * (E i j * x j) := by
    unfold quad
    simp only [dotProduct, mulVec, Finset.mul_sum]
  rw [e]
  have h1 : |∑ i, ∑ j, x i * (E i j * x j)| ≤ ∑ i, ∑ j, δ * (|x i| * |x j|) := by
    refine (Finset.abs_sum_le_sum_abs _ _).trans (Finset.sum_le_sum fun i _ => ?_)
    refine (Finset.abs_sum_le_sum_abs _ _).trans (Finset.sum_le_sum fun j _ => ?_)
    rw [abs_mul, abs_mul]
    have := mul_le_mul_of_nonneg_right (h i j) (mul_nonneg (abs_nonneg (x i)) (abs_nonneg (x j)))
    calc |x i| * (|E i j| * |x j|) = |E i j| * (|x i| * |x j|) := by ring
      _ ≤ _ := this
  have h2 : ∑ i, ∑ j, δ * (|x i| * |x j|) = δ * (∑ i, |x i|) ^ 2 := by
    rw [sq, Finset.sum_mul_sum, Finset.mul_sum]
    exact Finset.sum_congr rfl fun i _ => by rw [Finset.mul_sum]
  rw [h2] at h1
  refine h1.trans ?_
  rw [mul_assoc]
  exact mul_le_mul_of_nonneg_left (sum_abs_sq x) h0

theorem quad_near {a b : Matrix ι ι ℝ} {δ : ℝ} (hb : ∀ x, 0 ≤ quad b x) (h : ∀ i j, |a i j - b i j| ≤ δ) (h0 : 0 ≤ δ) (x : ι → ℝ) :
    -(δ * Fintype.card ι * normSq x) ≤ quad a x := by
  have e : quad a x = quad (a - b) x + quad b x := by
    rw [← quad_add, sub_add_cancel]
  have := quad_entry_bound (a - b) δ h h0 x
  rw [e]
  have := neg_abs_le (quad (a - b) x)
  have := hb x
  linarith

/-- C76: rounding can make `EmpiricalCovariance.covariance_` indefinite only by little: `d · 100 n u M²` times the identity added to it
makes it positive semi-definite. -/
theorem C76_empirical_psd (d : Bool) (calls : List (Call ι (Fl R))) (c : Matrix ι ι (Fl R)) (M : ℝ)
    (h : ((new (empiricalCls ι (Fl R)) d).run calls).covariance = .ok c) (hb : Bounded M (used d calls))
    (hl1 : R.tiny ≤ M) (hl2 : R.tiny ≤ M * M) (hn : (used d calls).length ≤ R.maxInt)
    (hnu : 16 * ((used d calls).length * R.u) ≤ 1) (x : ι → ℝ) :
    -(100 * (used d calls).length * (R.u * (M * M)) * Fintype.card ι * normSq x) ≤ quad (valMat c) x := by
  classical
  have hu := R.u_nonneg
  exact quad_near (psd_covOf _).2 (C76_empirical_covariance_error d calls c M h hb hl1 hl2 hn hnu)
    (mul_nonneg (by positivity) (mul_nonneg hu (mul_self_nonneg M))) x

theorem recencyCov_psd {r : ℝ} (h0 : 0 ≤ r) (h1 : r ≤ 1) (b : ℕ) (xs : List (ι → ℝ)) (x : ι → ℝ) : 0 ≤ quad (recencyCov r b xs) x := by
  classical
  by_cases hl : xs.length ≤ b
  · have : recencyCov r b xs = covOf xs := by ext i j; simp [recencyCov, hl]
    rw [this]; exact (psd_covOf xs).2 x
  · have e : recencyCov r b xs = (1 - r) ^ (xs.length - b) • covOf (xs.take b) +
        ∑ t ∈ Finset.Ico b xs.length, (r * (1 - r) ^ (xs.length - 1 - t)) • outer (innovation r b xs t) (innovation r b xs t) := by
      ext i j
      simp only [recencyCov, hl, if_false, of_apply, Matrix.add_apply, Matrix.smul_apply, smul_eq_mul, Matrix.sum_apply, outer]
    have k : ∀ (s : Finset ℕ) (f : ℕ → Matrix ι ι ℝ), (∀ t ∈ s, 0 ≤ quad (f t) x) → 0 ≤ quad (∑ t ∈ s, f t) x := fun s f hf => by
      have : quad (∑ t ∈ s, f t) x = ∑ t ∈ s, quad (f t) x := by
        unfold quad; rw [Matrix.sum_mulVec, dotProduct_sum]
      rw [this]; exact Finset.sum_nonneg hf
    have hr : 0 ≤ 1 - r := by linarith
    have sm : ∀ (a : ℝ) (m : Matrix ι ι ℝ), 0 ≤ a → 0 ≤ quad m x → 0 ≤ quad (a • m) x := fun a m ha hm => by
      have : quad (a • m) x = a * quad m x := by unfold quad; rw [smul_mulVec, dotProduct_smul, smul_eq_mul]
      rw [this]; exact mul_nonneg ha hm
    rw [e, quad_add]
    refine add_nonneg (sm _ _ (pow_nonneg hr _) ((psd_covOf _).2 x)) (k _ _ fun t _ => sm _ _ (mul_nonneg h0 (pow_nonneg hr _)) ?_)
    have : quad (outer (innovation r b xs t) (innovation r b xs t)) x = (innovation r b xs t ⬝ᵥ x) ^ 2 := by
      unfold quad
      rw [sq]
      simp only [dotProduct, mulVec, outer, of_apply]
      rw [Finset.sum_mul_sum]
      refine Finset.sum_congr rfl fun i _ => ?_
      rw [Finset.mul_sum]
      exact Finset.sum_congr rfl fun j _ => by ring
    rw [this]; exact sq_nonneg _

/-- C76: the same for `EwaCovariance`: `d · 400 u M² / r`, however long the stream. -/
theorem C76_ewa_psd (p : RParam (Fl R)) (h0 : 0 < p.r.val) (h1 : p.r.val ≤ 1) (hru : 80 * R.u ≤ p.r.val)
    (calls : List (Call ι (Fl R))) (c : Matrix ι ι (Fl R)) (M : ℝ)
    (h : ((new (ewaFlCls R ι) p).run calls).covariance = .ok c) (hb : Bounded M (used p.diff calls))
    (hl1 : R.tiny ≤ M) (hl2 : R.tiny ≤ M * M) (x : ι → ℝ) :
    -(400 * (R.u * (M * M)) / p.r.val * Fintype.card ι * normSq x) ≤ quad (valMat c) x := by
  have hu := R.u_nonneg
  exact quad_near (recencyCov_psd h0.le h1 _ _) (C76_ewa_covariance_error p h0 h1 hru calls c M h hb hl1 hl2)
    (div_nonneg (mul_nonneg (by norm_num) (mul_nonneg hu (mul_self_nonneg M))) h0.le) x

/-- Non-vacuity of C76_empirical_psd and C76_ewa_psd: three rows of two doubles, `r = 0.05`. -/
example : (∃ c, ((new (empiricalCls (Fin 2) (Fl Rounding.double)) false).run [.partialFit (.batch demoFl)]).covariance = .ok c ∧
      ∀ x, -(100 * 3 * (Rounding.double.u * (3 * 3)) * 2 * normSq x) ≤ quad (valMat c) x) ∧
    ∃ c, ((new (ewaFlCls Rounding.double (Fin 2)) ⟨r005, false⟩).run [.partialFit (.batch demoFl)]).covariance = .ok c ∧
      ∀ x, -(400 * (Rounding.double.u * (3 * 3)) / r005.val * 2 * normSq x) ≤ quad (valMat c) x := by
  have hne : used false [Call.partialFit (.batch demoFl)] ≠ [] := by rw [demoFl_used _ rfl]; simp [demoFl]
  have ht := double_tiny_le
  have h2 := run_covariance (empirical_lawful (Fin 2) (Fl Rounding.double)) false [.partialFit (.batch demoFl)] hne
  have h3 := run_covariance (ewaFl_lawful Rounding.double (Fin 2)) ⟨r005, false⟩ [.partialFit (.batch demoFl)] hne
  have hb : Bounded 3 (used false [Call.partialFit (.batch demoFl)]) := demoFl_bounded
  have hlen : (used false [Call.partialFit (.batch demoFl)]).length = 3 := rfl
  refine ⟨⟨_, h2, fun x => ?_⟩, ⟨_, h3, fun x => ?_⟩⟩
  · have := C76_empirical_psd false _ _ 3 h2 hb (by linarith) (by linarith) (by rw [hlen]; show 3 ≤ 2 ^ 53; norm_num)
      (by rw [hlen]; show 16 * (((3 : ℕ) : ℝ) * ((1 : ℝ) / 2) ^ 53) ≤ 1; norm_num) x
    rw [hlen, Fintype.card_fin] at this
    push_cast at this
    exact this
  · have := C76_ewa_psd ⟨r005, false⟩ r005_pos r005_le r005_ge _ _ 3 h3 hb (by linarith) (by linarith) x
    rw [Fintype.card_fin] at this
    push_cast at this
    exact this

/-! ### Doubles whose covariance is indefinite -/

theorem rep_dyadic (k e : ℤ) (he : -1074 ≤ e) (hk : |(k : ℝ)| ≤ 2 ^ 53) : Rounding.double.rnd (k * (2 : ℝ) ^ e) = k * (2 : ℝ) ^ e :=
  ieeeRnd_rep (p := 53) (emin := -1074) (by norm_num) he hk

theorem rep_a : Rounding.double.rnd 134217729 = 134217729 := by
  have := rep_dyadic 134217729 0 (by norm_num) (by norm_num)
  norm_num at this; exact this

theorem rep_b : Rounding.double.rnd 134217731 = 134217731 := by
  have := rep_dyadic 134217731 0 (by norm_num) (by norm_num)
  norm_num at this; exact this

/-- The double 134217729.0. -/
noncomputable def fa : Fl Rounding.double := ⟨134217729, rep_a⟩
/-- The double 134217731.0. -/
noncomputable def fb : Fl Rounding.double := ⟨134217731, rep_b⟩

/-- The two observations `(0, 0)` and `(134217729, 134217731)`. -/
noncomputable def badRows : List (Fin 2 → Fl Rounding.double) := [![0, 0], ![fa, fb]]

/-- The covariance entry after a second observation when the first one was zero: one rounded product. -/
theorem second_row (v w P : ℝ) (hv : Rounding.double.rnd v = v) (hw : Rounding.double.rnd w = w)
    (hw2 : Rounding.double.rnd (w / 2) = w / 2) (hw4 : Rounding.double.rnd (w / 4) = w / 4)
    (hP : Rounding.double.rnd (v * (w / 4)) = P) (s : EmpState (Fin 2) (Fl Rounding.double)) (hs : s.nSamples = 1)
    (hm : ∀ i, (s.mean i).val = 0) (hc : ∀ i j, (s.cov i j).val = 0) (x : Fin 2 → Fl Rounding.double) (i j : Fin 2)
    (hi : (x i).val = v) (hj : (x j).val = w) : ((empUpdate s x).cov i j).val = P := by
  have h2 : Rounding.double.rnd ((s.nSamples + 1 : ℕ) : ℝ) = 2 := by
    have := Rounding.double.int_exact 2 (by have := Rounding.double.maxInt_ge; omega)
    rw [hs]; norm_num at this ⊢; exact this
  have e : ((empUpdate s x).cov i j).val = Rounding.double.rnd (Rounding.double.rnd (Rounding.double.rnd ((s.cov i j).val * Rounding.double.rnd ((s.nSamples + 1 - 1 : ℕ) : ℝ))
        / Rounding.double.rnd ((s.nSamples + 1 : ℕ) : ℝ)) + Rounding.double.rnd (Rounding.double.rnd ((x i).val - (s.mean i).val)
          * Rounding.double.rnd (Rounding.double.rnd ((x j).val - ((empUpdate s x).mean j).val) / Rounding.double.rnd ((s.nSamples + 1 : ℕ) : ℝ)))) := rfl
  have em : ((empUpdate s x).mean j).val = Rounding.double.rnd ((s.mean j).val +
      Rounding.double.rnd (Rounding.double.rnd ((x j).val - (s.mean j).val) / Rounding.double.rnd ((s.nSamples + 1 : ℕ) : ℝ))) := rfl
  rw [e, em, h2, hm, hm, hc, hi, hj, sub_zero, sub_zero, hv, hw, hw2, zero_add, hw2, zero_mul, Rounding.rnd_zero, zero_div, Rounding.rnd_zero,
    show w - w / 2 = w / 2 by ring, hw2, show w / 2 / 2 = w / 4 by ring, hw4, hP, zero_add, ← hP, Rounding.double.idem]

theorem bad_covariance : ∃ c : Matrix (Fin 2) (Fin 2) (Fl Rounding.double),
    ((new (empiricalCls (Fin 2) (Fl Rounding.double)) false).run [.fit (.batch badRows)]).covariance = .ok c ∧
    (c 0 0).val = 4503599694479360 ∧ (c 0 1).val = 4503599761588225 ∧ (c 1 0).val = 4503599761588225 ∧
    (c 1 1).val = 4503599828697090 := by
  have hne : used false [Call.fit (.batch badRows)] ≠ [] := by
    show badRows ≠ []; simp [badRows]
  refine ⟨_, run_covariance (empirical_lawful (Fin 2) (Fl Rounding.double)) false [.fit (.batch badRows)] hne, ?_⟩
  obtain ⟨h1, -, h3, h4⟩ := emp_constant (R := Rounding.double) (![0, 0] : Fin 2 → Fl Rounding.double) [![0, 0]] (by simp)
  have hm : ∀ i, ((([![0, 0]] : List (Fin 2 → Fl Rounding.double)).foldl empUpdate empInit).mean i).val = 0 := fun i => by
    rw [h3 (by simp)]; fin_cases i <;> rfl
  have st : (badRows.foldl empUpdate empInit : EmpState (Fin 2) (Fl Rounding.double)) =
      empUpdate (([![0, 0]] : List (Fin 2 → Fl Rounding.double)).foldl empUpdate empInit) ![fa, fb] := rfl
  have d : ∀ (k e : ℤ) (y : ℝ), -1074 ≤ e → |(k : ℝ)| ≤ 2 ^ 53 → y = k * (2 : ℝ) ^ e → Rounding.double.rnd y = y := fun k e y he hk hy => by
    rw [hy]; exact rep_dyadic k e he hk
  have a2 := d 134217729 (-1) (134217729 / 2) (by norm_num) (by norm_num) (by norm_num)
  have a4 := d 134217729 (-2) (134217729 / 4) (by norm_num) (by norm_num) (by norm_num)
  have b2 := d 134217731 (-1) (134217731 / 2) (by norm_num) (by norm_num) (by norm_num)
  have b4 := d 134217731 (-2) (134217731 / 4) (by norm_num) (by norm_num) (by norm_num)
  have paa : Rounding.double.rnd (134217729 * (134217729 / 4)) = 4503599694479360 := by
    show ieeeRnd 53 (-1074) _ = _
    rw [ieeeRnd_eval 4503599694479360 0 (by norm_num) (by norm_num [abs_of_pos]) (by norm_num [abs_of_pos])
      (by rw [abs_le]; norm_num) (fun _ => by norm_num)]
    norm_num
  have pab : Rounding.double.rnd (134217729 * (134217731 / 4)) = 4503599761588225 := by
    show ieeeRnd 53 (-1074) _ = _
    rw [ieeeRnd_eval 4503599761588225 0 (by norm_num) (by norm_num [abs_of_pos]) (by norm_num [abs_of_pos])
      (by rw [abs_le]; norm_num) (fun h => by norm_num [abs_of_neg, abs_of_pos] at h)]
    norm_num
  have pba : Rounding.double.rnd (134217731 * (134217729 / 4)) = 4503599761588225 := by
    rw [← pab]; congr 1; ring
  have pbb : Rounding.double.rnd (134217731 * (134217731 / 4)) = 4503599828697090 := by
    show ieeeRnd 53 (-1074) _ = _
    rw [ieeeRnd_eval 4503599828697090 0 (by norm_num) (by norm_num [abs_of_pos]) (by norm_num [abs_of_pos])
      (by rw [abs_le]; norm_num) (fun _ => by norm_num)]
    norm_num
  have sym : ∀ (k : ℤ) (P : ℝ), |(k : ℝ)| ≤ 2 ^ 53 → P = k → Rounding.double.rnd (Rounding.double.rnd (P + P) / 2) = P := fun k P hk hP => by
    have e1 := d k 1 (P + P) (by norm_num) hk (by rw [hP]; norm_num; ring)
    have e2 := d k 0 P (by norm_num) hk (by rw [hP]; norm_num)
    rw [e1, show (P + P) / 2 = P by ring, e2]
  have fin : ∀ (i j : Fin 2) (p q : ℝ) (k : ℤ), (((badRows.foldl empUpdate empInit : EmpState (Fin 2) (Fl Rounding.double))).cov i j).val = p →
      (((badRows.foldl empUpdate empInit : EmpState (Fin 2) (Fl Rounding.double))).cov j i).val = p → |(k : ℝ)| ≤ 2 ^ 53 → p = k →
      (toSymmetric (badRows.foldl empUpdate empInit : EmpState (Fin 2) (Fl Rounding.double)).cov i j).val = p := fun i j p q k e1 e2 hk hp => by
    show Rounding.double.rnd (Rounding.double.rnd (_ + _) / 2) = p
    erw [e1, e2]
    exact sym k p hk hp
  have E := second_row (s := ([![0, 0]] : List (Fin 2 → Fl Rounding.double)).foldl empUpdate empInit) (hs := h1) (hm := hm) (hc := h4) (x := ![fa, fb])
  have eaa := E _ _ _ rep_a rep_a a2 a4 paa 0 0 rfl rfl
  have eab := E _ _ _ rep_a rep_b b2 b4 pab 0 1 rfl rfl
  have eba := E _ _ _ rep_b rep_a a2 a4 pba 1 0 rfl rfl
  have ebb := E _ _ _ rep_b rep_b b2 b4 pbb 1 1 rfl rfl
  exact ⟨fin 0 0 _ 0 4503599694479360 eaa eaa (by norm_num) (by norm_num), fin 0 1 _ 0 4503599761588225 eab eba (by norm_num) (by norm_num),
    fin 1 0 _ 0 4503599761588225 eba eab (by norm_num) (by norm_num), fin 1 1 _ 0 4503599828697090 ebb ebb (by norm_num) (by norm_num)⟩

/-- C75 (violation): in doubles `EmpiricalCovariance.covariance_` of the two observations `(0, 0)` and `(134217729, 134217731)` is not positive
semi-definite: its determinant is negative, so the squared "correlation" of the two variables exceeds 1 and some direction has negative variance. -/
theorem C75_not_psd : ∃ c : Matrix (Fin 2) (Fin 2) (Fl Rounding.double),
    ((new (empiricalCls (Fin 2) (Fl Rounding.double)) false).run [.fit (.batch badRows)]).covariance = .ok c ∧
    (valMat c).det < 0 ∧ (c 0 0).val * (c 1 1).val < (c 0 1).val ^ 2 ∧ ∃ x : Fin 2 → ℝ, quad (valMat c) x < 0 := by
  obtain ⟨c, h, e1, e2, e3, e4⟩ := bad_covariance
  refine ⟨c, h, ?_, ?_, ![134217731, -134217729], ?_⟩
  · rw [det_fin_two]
    show (c 0 0).val * (c 1 1).val - (c 0 1).val * (c 1 0).val < 0
    rw [e1, e2, e3, e4]; norm_num
  · rw [e1, e2, e4]; norm_num
  · simp only [quad, dotProduct, mulVec, Fin.sum_univ_two, valMat, of_apply, e1, e2, e3, e4, cons_val_zero, cons_val_one]
    norm_num

/-- C75 (violation): in doubles `correlation_` of the same two observations exceeds 1: it is `1 + 2⁻⁵²`. -/
theorem C75_correlation_above_one : ∃ r : Matrix (Fin 2) (Fin 2) (Fl Rounding.double),
    ((new (empiricalCls (Fin 2) (Fl Rounding.double)) false).run [.fit (.batch badRows)]).correlationFl = .ok r ∧
    (r 0 1).val = 1 + 1 / 2 ^ 52 := by
  obtain ⟨c, h, e1, e2, e3, e4⟩ := bad_covariance
  refine ⟨covToCorrFl c, by unfold Obj.correlationFl; rw [h]; rfl, ?_⟩
  show Rounding.double.rnd ((c 0 1).val / Rounding.double.rnd (Rounding.double.rnd (Real.sqrt (Rounding.double.rnd ((c 1 1).val * (c 0 0).val)))
    + Rounding.double.rnd (1 / 10 ^ 12))) = _
  rw [e1, e2, e4]
  have hP : Rounding.double.rnd (4503599828697090 * 4503599694479360) = 4503599895805957 * 2 ^ 52 := by
    show ieeeRnd 53 (-1074) _ = _
    rw [ieeeRnd_eval 4503599895805957 52 (by norm_num) (by norm_num [abs_of_pos]) (by norm_num [abs_of_pos])
      (by rw [abs_le]; norm_num) (fun h => by norm_num [abs_of_pos, abs_of_neg] at h)]
    norm_num
  have hS : Rounding.double.rnd (Real.sqrt (4503599895805957 * 2 ^ 52)) = 4503599761588224 := by
    have lo : (4503599761588224 - 1 / 2 : ℝ) < Real.sqrt (4503599895805957 * 2 ^ 52) := Real.lt_sqrt_of_sq_lt (by norm_num)
    have hi : Real.sqrt (4503599895805957 * 2 ^ 52) < (4503599761588224 + 1 / 2 : ℝ) := by
      rw [Real.sqrt_lt' (by norm_num)]; norm_num
    generalize Real.sqrt (4503599895805957 * 2 ^ 52) = q at lo hi
    show ieeeRnd 53 (-1074) _ = _
    rw [ieeeRnd_eval 4503599761588224 0 (by norm_num) (by rw [abs_of_pos (by linarith)]; norm_num at lo ⊢; linarith)
      (by rw [abs_of_pos (by linarith)]; norm_num at hi ⊢; linarith)
      (by rw [abs_le]; push_cast; constructor <;> norm_num at lo hi ⊢ <;> linarith) (fun _ => by norm_num)]
    norm_num
  have hE0 : 0 ≤ Rounding.double.rnd (1 / 10 ^ 12) := Rounding.double.rnd_nonneg (by norm_num)
  have hE1 : Rounding.double.rnd (1 / 10 ^ 12) ≤ 1 / 4 := by
    have h4 : Rounding.double.rnd (1 / 4) = 1 / 4 := by
      have := rep_dyadic 1 (-2) (by norm_num) (by norm_num)
      norm_num at this ⊢; exact this
    rw [← h4]; exact Rounding.double.mono (by norm_num)
  rw [hP, hS]
  generalize Rounding.double.rnd (1 / 10 ^ 12) = ε at hE0 hE1
  have hD : Rounding.double.rnd (4503599761588224 + ε) = 4503599761588224 := by
    show ieeeRnd 53 (-1074) _ = _
    rw [ieeeRnd_eval 4503599761588224 0 (by norm_num) (by rw [abs_of_pos (by linarith)]; norm_num; linarith)
      (by rw [abs_of_pos (by linarith)]; norm_num; linarith)
      (by rw [abs_le]; push_cast; constructor <;> norm_num <;> linarith) (fun _ => by norm_num)]
    norm_num
  rw [hD]
  show ieeeRnd 53 (-1074) _ = _
  rw [ieeeRnd_eval 4503599627370497 (-52) (by norm_num) (by norm_num [abs_of_pos]) (by norm_num [abs_of_pos])
    (by rw [abs_le]; norm_num) (fun h => by norm_num [abs_of_pos, abs_of_neg] at h)]
  norm_num

end Precise
