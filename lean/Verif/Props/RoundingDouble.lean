import Verif.Props.RoundingError

/-!
# C75, C76 in IEEE double precision: a witness and the non-vacuity examples
-/

set_option linter.all false

namespace Precise

open Spec Obj

theorem halfEven_eq {z : ℝ} {k : ℤ} (h : |z - k| ≤ 1 / 2) (he : |z - k| = 1 / 2 → k % 2 = 0) : halfEven z = k := by
  have h1 := Int.floor_add_fract z
  have h2 := Int.fract_nonneg z
  have h3 := Int.fract_lt_one z
  rw [abs_le] at h
  have hlo : ⌊z⌋ = k ∨ ⌊z⌋ = k - 1 := by
    have a : k - 1 ≤ ⌊z⌋ := Int.le_floor.2 (by push_cast; linarith)
    have b : ⌊z⌋ < k + 1 := Int.floor_lt.2 (by push_cast; linarith)
    omega
  rcases hlo with e | e
  · have e' : ((⌊z⌋ : ℤ) : ℝ) = k := by rw [e]
    have hf : Int.fract z = z - k := by linarith
    unfold halfEven
    rw [e, hf]
    by_cases ht : |z - k| = 1 / 2
    · have := he ht
      rw [abs_of_nonneg (by linarith)] at ht
      rw [if_neg (by linarith), if_neg (by linarith), if_pos this]
    · rw [abs_of_nonneg (by linarith)] at ht
      rw [if_pos (lt_of_le_of_ne h.2 ht)]
  · have e' : ((⌊z⌋ : ℤ) : ℝ) = k - 1 := by rw [e]; push_cast; ring
    have hf : Int.fract z = z - k + 1 := by linarith
    unfold halfEven
    rw [e, hf]
    by_cases ht : |z - k| = 1 / 2
    · have hk := he ht
      rw [abs_of_nonpos (by linarith)] at ht
      rw [if_neg (by linarith), if_neg (by linarith), if_neg (by omega)]; ring
    · rw [abs_of_nonpos (by linarith)] at ht
      have : -(1 / 2) < z - k := lt_of_le_of_ne h.1 (fun h => ht (by linarith))
      rw [if_neg (by linarith), if_pos (by linarith)]; ring

theorem ieeeRnd_eval {p : ℕ} {emin : ℤ} {x : ℝ} (k e : ℤ) (he : emin ≤ e) (h1 : (2 : ℝ) ^ (p - 1 : ℤ) * (2 : ℝ) ^ e ≤ |x|)
    (h2 : |x| < (2 : ℝ) ^ (p : ℤ) * (2 : ℝ) ^ e) (h3 : |x / (2 : ℝ) ^ e - k| ≤ 1 / 2)
    (h4 : |x / (2 : ℝ) ^ e - k| = 1 / 2 → k % 2 = 0) : ieeeRnd p emin x = k * (2 : ℝ) ^ e := by
  rw [← zpow_add₀ (by norm_num)] at h1 h2
  have hx : x ≠ 0 := abs_pos.1 ((two_zpow_pos _).trans_le h1)
  have a := le_log_of hx h1
  have b := log_le_of_lt hx h2
  have hu : ulpExp p emin x = e := by unfold ulpExp; omega
  unfold ieeeRnd
  rw [hu, halfEven_eq h3 h4]

/-- The double nearest to 0.05, the value a user writes as `r=0.05`. -/
theorem rep_r : Rounding.double.rnd (3602879701896397 / 2 ^ 56) = 3602879701896397 / 2 ^ 56 := by
  have := ieeeRnd_rep (p := 53) (emin := -1074) (k := 3602879701896397) (e := -56) (by norm_num) (by norm_num) (by norm_num)
  rw [show ((3602879701896397 : ℤ) : ℝ) * (2 : ℝ) ^ (-56 : ℤ) = 3602879701896397 / 2 ^ 56 by norm_num] at this
  exact this

noncomputable def r005 : Fl Rounding.double := ⟨3602879701896397 / 2 ^ 56, rep_r⟩

theorem rep_3 : Rounding.double.rnd 3 = 3 := by
  have := Rounding.double.int_exact 3 (by show 3 ≤ 2 ^ 53; norm_num)
  simpa using this

/-- The double 3.0. -/
noncomputable def f3 : Fl Rounding.double := ⟨3, rep_3⟩

theorem r005_nearest : Fl.of Rounding.double (5 / 100) = r005 := by
  apply Fl.ext
  show ieeeRnd 53 (-1074) (5 / 100) = 3602879701896397 / 2 ^ 56
  rw [ieeeRnd_eval 7205759403792794 (-57) (by norm_num) (by norm_num [abs_of_pos]) (by norm_num [abs_of_pos])
    (by rw [abs_le]; norm_num) (fun _ => by norm_num)]
  norm_num

theorem burn_r005 : ewaBurnNFl r005 = 20 := by
  have h : (1 / r005).val = 20 := by
    show ieeeRnd 53 (-1074) ((1 : Fl Rounding.double).val / (3602879701896397 / 2 ^ 56)) = 20
    rw [Fl.val_one, ieeeRnd_eval 5629499534213120 (-48) (by norm_num) (by norm_num [abs_of_pos]) (by norm_num [abs_of_pos])
      (by rw [abs_le]; norm_num) (fun _ => by norm_num)]
    norm_num
  unfold ewaBurnNFl
  rw [h]; norm_num; rfl

/-- C75 (violation): with doubles and `r = 0.05`, after twenty-one observations all equal to `3.0`,
`EwaCovariance.location_` is `3 - 2⁻⁵¹`: outside the range of the data. `EmpiricalCovariance` returns exactly `3.0`
(`C75_constant`). -/
theorem C75_ewa_leaves_range :
    ((new (ewaFlCls Rounding.double (Fin 1)) ⟨r005, false⟩).run [.fit (.batch (List.replicate 21 fun _ => f3))]).location.map
        (fun m => (m 0).val) = .ok (3 - 1 / 2 ^ 51) ∧
    ((new (empiricalCls (Fin 1) (Fl Rounding.double)) false).run [.fit (.batch (List.replicate 21 fun _ => f3))]).location
        = .ok fun _ => f3 := by
  have hu : ∀ b, b = false → used b [Call.fit (.batch (List.replicate 21 fun _ : Fin 1 => f3))]
      = List.replicate 21 fun _ : Fin 1 => f3 := by
    rintro b rfl; rfl
  constructor
  · rw [run_location (ewaFl_lawful Rounding.double (Fin 1)) ⟨r005, false⟩ _ (by simp [ewaFlCls, used, effective, rowsSinceFit])]
    show Except.ok (((ewaFloat r005 (ewaBurnNFl r005) (List.replicate 21 fun _ : Fin 1 => f3)).mean 0).val) = _
    rw [burn_r005, List.replicate_succ', show (ewaFloat r005 20 (List.replicate 20 (fun _ : Fin 1 => f3) ++ [fun _ => f3])).mean
      = (ewaFloat r005 20 (List.replicate 20 (fun _ : Fin 1 => f3) ++ [fun _ => f3])).toEmpState.mean from rfl,
      ewaFloat_tail _ _ _ _ (by simp), ewaFloat_burn _ _ _ (by simp)]
    have hm := (emp_constant (fun _ : Fin 1 => f3) (List.replicate 20 fun _ : Fin 1 => f3)
      (fun x hx => List.eq_of_mem_replicate hx)).2.2.1 (by simp)
    show Except.ok (Rounding.double.rnd (Rounding.double.rnd (Rounding.double.rnd (1 - r005.val)
      * (((List.replicate 20 fun _ : Fin 1 => f3).foldl empUpdate empInit : EmpState (Fin 1) (Fl Rounding.double)).mean 0).val)
      + Rounding.double.rnd (r005.val * f3.val))) = _
    rw [hm]
    congr 1
    show ieeeRnd 53 (-1074) (ieeeRnd 53 (-1074) (ieeeRnd 53 (-1074) (1 - 3602879701896397 / 2 ^ 56) * 3)
      + ieeeRnd 53 (-1074) (3602879701896397 / 2 ^ 56 * 3)) = 3 - 1 / 2 ^ 51
    rw [ieeeRnd_eval (x := 1 - 3602879701896397 / 2 ^ 56) 8556839292003942 (-53) (by norm_num) (by norm_num [abs_of_pos])
        (by norm_num [abs_of_pos]) (by rw [abs_le]; norm_num) (fun _ => by norm_num),
      ieeeRnd_eval (x := 3602879701896397 / 2 ^ 56 * 3) 5404319552844596 (-55) (by norm_num) (by norm_num [abs_of_pos])
        (by norm_num [abs_of_pos]) (by rw [abs_le]; norm_num) (fun _ => by norm_num),
      ieeeRnd_eval (x := ((8556839292003942 : ℤ) : ℝ) * (2 : ℝ) ^ (-53 : ℤ) * 3) 6417629469002956 (-51) (by norm_num)
        (by norm_num [abs_of_pos]) (by norm_num [abs_of_pos]) (by rw [abs_le]; norm_num) (fun _ => by norm_num),
      ieeeRnd_eval (x := ((6417629469002956 : ℤ) : ℝ) * (2 : ℝ) ^ (-51 : ℤ) + ((5404319552844596 : ℤ) : ℝ) * (2 : ℝ) ^ (-55 : ℤ))
        6755399441055743 (-51) (by norm_num) (by norm_num [abs_of_pos]) (by norm_num [abs_of_pos]) (by rw [abs_le]; norm_num)
        (fun h => by norm_num at h)]
    norm_num
  · exact (C75_constant false _ (fun _ => f3) (by
      rw [hu _ rfl]; exact fun x hx => List.eq_of_mem_replicate hx) (by rw [hu _ rfl]; simp)).1

/-! ### The hypotheses of C75 and C76 are met: three rows of two doubles, `r = 0.05`. -/

noncomputable def demoFl : List (Fin 2 → Fl Rounding.double) := [![1, f3], ![2, 1], ![f3, f3]]

theorem demoFl_used (b : Bool) (h : b = false) : used b [Call.partialFit (.batch demoFl)] = demoFl := by
  subst h; rfl

theorem demoFl_bounded : Bounded 3 demoFl := by
  intro x hx i
  have e1 : (1 : Fl Rounding.double).val = 1 := rfl
  have e2 : (2 : Fl Rounding.double).val = 2 := rfl
  have e3 : f3.val = 3 := rfl
  simp only [demoFl, List.mem_cons, List.not_mem_nil, or_false] at hx
  rcases hx with rfl | rfl | rfl <;> fin_cases i <;> simp [e1, e2, e3] <;> norm_num [abs_of_pos]

theorem r005_pos : 0 < r005.val := by show (0 : ℝ) < 3602879701896397 / 2 ^ 56; norm_num
theorem r005_le : r005.val ≤ 1 := by show (3602879701896397 / 2 ^ 56 : ℝ) ≤ 1; norm_num
theorem r005_ge : 80 * Rounding.double.u ≤ r005.val := by
  show 80 * ((1 : ℝ) / 2) ^ 53 ≤ 3602879701896397 / 2 ^ 56; norm_num
theorem double_tiny_le : Rounding.double.tiny ≤ 1 := Rounding.double.tiny_le

/-- C75/C76 for EmpiricalCovariance: location and covariance exist and the bounds apply (here `100 · 3 · 2⁻⁵³ · 9`). -/
example : ∃ m c, ((new (empiricalCls (Fin 2) (Fl Rounding.double)) false).run [.partialFit (.batch demoFl)]).location = .ok m ∧
    ((new (empiricalCls (Fin 2) (Fl Rounding.double)) false).run [.partialFit (.batch demoFl)]).covariance = .ok c ∧
    (∀ i, 0 ≤ c i i) ∧ (∀ i, 1 ≤ m i ∧ m i ≤ f3) ∧
    (∀ i, |(m i).val - meanOf (vals demoFl) i| ≤ Rounding.double.u * (3 + 2 * Rounding.double.tiny) * 7) ∧
    ∀ i j, |(c i j).val - covOf (vals demoFl) i j| ≤ 2700 * Rounding.double.u := by
  have hne : used false [Call.partialFit (.batch demoFl)] ≠ [] := by rw [demoFl_used _ rfl]; simp [demoFl]
  have h1 := run_location (empirical_lawful (Fin 2) (Fl Rounding.double)) false [.partialFit (.batch demoFl)] hne
  have h2 := run_covariance (empirical_lawful (Fin 2) (Fl Rounding.double)) false [.partialFit (.batch demoFl)] hne
  have ht := double_tiny_le
  have hb : Bounded 3 (used false [Call.partialFit (.batch demoFl)]) := demoFl_bounded
  have hlen : (used false [Call.partialFit (.batch demoFl)]).length = 3 := rfl
  refine ⟨_, _, h1, h2, (C75_empirical_variance false _ _ h2).1, fun i => C75_location_in_range false _ _ h1 i 1 f3 ?_,
    fun i => ?_, fun i j => ?_⟩
  · intro x hx
    have e1 : (1 : Fl Rounding.double).val = 1 := rfl
    have e2 : (2 : Fl Rounding.double).val = 2 := rfl
    have e3 : f3.val = 3 := rfl
    rw [demoFl_used _ rfl] at hx
    simp only [demoFl, List.mem_cons, List.not_mem_nil, or_false] at hx
    rcases hx with rfl | rfl | rfl <;> fin_cases i <;> simp [Fl.le_def, e1, e2, e3] <;> norm_num
  · have := C76_empirical_location_error false _ _ 3 h1 hb (by rw [hlen]; show 3 ≤ 2 ^ 53; norm_num) i
    rw [hlen] at this
    refine this.trans (le_of_eq ?_)
    norm_num
  · have := C76_empirical_covariance_error false _ _ 3 h2 hb (by linarith) (by linarith) (by rw [hlen]; show 3 ≤ 2 ^ 53; norm_num)
      (by rw [hlen]; show 16 * (((3 : ℕ) : ℝ) * ((1 : ℝ) / 2) ^ 53) ≤ 1; norm_num) i j
    rw [hlen] at this
    refine this.trans (le_of_eq ?_)
    push_cast; ring

/-- C75/C76 for EwaCovariance with the default-size rate `0.05`. -/
example : ∃ m c, ((new (ewaFlCls Rounding.double (Fin 2)) ⟨r005, false⟩).run [.partialFit (.batch demoFl)]).location = .ok m ∧
    ((new (ewaFlCls Rounding.double (Fin 2)) ⟨r005, false⟩).run [.partialFit (.batch demoFl)]).covariance = .ok c ∧
    (∀ i, 0 ≤ c i i) ∧
    (∀ i, |(m i).val - recencyMean r005.val (ewaBurnNFl r005) (vals demoFl) i|
      ≤ 9 * (Rounding.double.u * (3 + 2 * Rounding.double.tiny)) / r005.val) ∧
    ∀ i j, |(c i j).val - recencyCov r005.val (ewaBurnNFl r005) (vals demoFl) i j| ≤ 400 * (Rounding.double.u * (3 * 3)) / r005.val := by
  have hne : used false [Call.partialFit (.batch demoFl)] ≠ [] := by rw [demoFl_used _ rfl]; simp [demoFl]
  have h1 := run_location (ewaFl_lawful Rounding.double (Fin 2)) ⟨r005, false⟩ [.partialFit (.batch demoFl)] hne
  have h2 := run_covariance (ewaFl_lawful Rounding.double (Fin 2)) ⟨r005, false⟩ [.partialFit (.batch demoFl)] hne
  have ht := double_tiny_le
  have hu0 := Rounding.double.u_nonneg
  have hg := r005_ge
  exact ⟨_, _, h1, h2, (C75_ewa_variance ⟨r005, false⟩ r005_pos.le r005_le _ _ h2).1,
    fun i => C76_ewa_location_error ⟨r005, false⟩ r005_pos r005_le (by show 8 * _ ≤ r005.val; linarith) _ _ 3 h1 demoFl_bounded i,
    fun i j => C76_ewa_covariance_error ⟨r005, false⟩ r005_pos r005_le hg _ _ 3 h2 demoFl_bounded (by linarith) (by linarith) i j⟩

/-- C75 for DiagonalCovariance. -/
example : ∃ c, ((new (diagonalFlCls Rounding.double (Fin 2)) ⟨r005, true⟩).run [.partialFit (.batch demoFl)]).covariance = .ok c ∧
    ∀ i, 0 ≤ c i i := by
  have hne : used true [Call.partialFit (.batch demoFl)] ≠ [] := by
    show diffs demoFl ≠ []; simp [demoFl, diffs]
  have h2 := run_covariance (diagonalFl_lawful Rounding.double (Fin 2)) ⟨r005, true⟩ [.partialFit (.batch demoFl)] hne
  exact ⟨_, h2, (C75_diagonal_variance ⟨r005, true⟩ r005_pos.le r005_le _ _ h2).1⟩

end Precise
