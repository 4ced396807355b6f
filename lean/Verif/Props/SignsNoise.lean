import Verif.Props.SignsBlocks
import Verif.Props.Shrinkage
import Mathlib.MeasureTheory.Integral.Bochner.Basic

/-!
# C129, continued: noise that has no direction is not reported as covariance; the location of symmetric data is unbiased;
and the constant-correlation target of ShrunkCovariance
-/

set_option linter.all false

open Matrix MeasureTheory

namespace Precise

open Spec Obj

variable {ι : Type} [Fintype ι] [DecidableEq ι]

section Random
variable {Ω : Type} [MeasurableSpace Ω] {P : Measure Ω} {C : Cls ι ℝ} {p : C.Param} {calls : Ω → List (Call ι ℝ)}

/-- C129: when the data look the same (in law) with the columns `w i = -1` turned round, the reported covariance of two
columns of which exactly one is turned has a law that is symmetric about zero: it is as often above any level as it is below
minus that level. -/
theorem C129_no_direction {w : ι → ℝ} (hT : Transports C C p p (flipVec w) (flipVec w) (flipMat w))
    (h : Invariant P (flipVec w) calls) {i j : ι} (hij : w i * w j = -1) (A : Set ℝ) :
    P {ω | ∃ a, ((new C p).run (calls ω)).covariance = .ok a ∧ a i j ∈ A}
      = P {ω | ∃ a, ((new C p).run (calls ω)).covariance = .ok a ∧ -(a i j) ∈ A} := by
  obtain ⟨T, hP, hω⟩ := h.swap
  rw [← hP.measure_preimage_equiv]
  congr 1
  ext ω
  simp only [Set.mem_preimage, Set.mem_setOf_eq]
  rw [hω, (hT (calls ω)).2.2]
  have e : ∀ a : Matrix ι ι ℝ, flipMat w a i j = -(a i j) := by
    intro a
    simp only [flipMat, of_apply]
    linear_combination (a i j) * hij
  cases ((new C p).run (calls ω)).covariance with
  | error x => simp [Except.map]
  | ok a => simp [Except.map, e]

/-- C129: in particular its expectation is zero, in every sample size, for every estimator that turns with the data. -/
theorem C129_zero_mean {w : ι → ℝ} (hT : Transports C C p p (flipVec w) (flipVec w) (flipMat w))
    (h : Invariant P (flipVec w) calls) {i j : ι} (hij : w i * w j = -1) :
    ∫ ω, matEntry ((new C p).run (calls ω)).covariance i j ∂P = 0 := by
  obtain ⟨T, hP, hω⟩ := h.swap
  have h1 := hP.integral_comp' (fun ω => matEntry ((new C p).run (calls ω)).covariance i j)
  have e : ∀ a : Matrix ι ι ℝ, flipMat w a i j = -(a i j) := by
    intro a
    simp only [flipMat, of_apply]
    linear_combination (a i j) * hij
  have h2 : ∀ ω, matEntry ((new C p).run (calls (T ω))).covariance i j = -matEntry ((new C p).run (calls ω)).covariance i j := by
    intro ω
    rw [hω, (hT (calls ω)).2.2]
    cases ((new C p).run (calls ω)).covariance with
    | error x => simp [Except.map, matEntry]
    | ok a => simp [Except.map, matEntry, e]
  simp only [h2, integral_neg] at h1
  linarith

/-- C129: when the data look the same (in law) after reflection through a point, the error of `location_` is as often above
any level as below minus that level. -/
theorem C129_location_symmetric {c m : ι → ℝ} {f : Matrix ι ι ℝ → Matrix ι ι ℝ} (hT : Transports C C p p (reflect c) (reflect m) f)
    (h : Invariant P (reflect c) calls) (i : ι) (A : Set ℝ) :
    P {ω | ∃ v, ((new C p).run (calls ω)).location = .ok v ∧ v i - m i ∈ A}
      = P {ω | ∃ v, ((new C p).run (calls ω)).location = .ok v ∧ m i - v i ∈ A} := by
  obtain ⟨T, hP, hω⟩ := h.swap
  rw [← hP.measure_preimage_equiv]
  congr 1
  ext ω
  simp only [Set.mem_preimage, Set.mem_setOf_eq]
  rw [hω, (hT (calls ω)).2.1]
  have e : ∀ v : ι → ℝ, reflect m v i - m i = m i - v i := by
    intro v; simp only [reflect]; ring
  cases ((new C p).run (calls ω)).location with
  | error x => simp [Except.map]
  | ok a => simp [Except.map, e]

/-- C129: and it is unbiased, once it is integrable. -/
theorem C129_location_unbiased [IsProbabilityMeasure P] {c m : ι → ℝ} {f : Matrix ι ι ℝ → Matrix ι ι ℝ}
    (hT : Transports C C p p (reflect c) (reflect m) f) (h : Invariant P (reflect c) calls) (i : ι)
    (hint : Integrable (fun ω => vecEntry m ((new C p).run (calls ω)).location i) P) :
    ∫ ω, vecEntry m ((new C p).run (calls ω)).location i ∂P = m i := by
  obtain ⟨T, hP, hω⟩ := h.swap
  have h1 := hP.integral_comp' (fun ω => vecEntry m ((new C p).run (calls ω)).location i)
  have h2 : ∀ ω, vecEntry m ((new C p).run (calls (T ω))).location i = 2 * m i - vecEntry m ((new C p).run (calls ω)).location i := by
    intro ω
    rw [hω, (hT (calls ω)).2.1]
    cases ((new C p).run (calls ω)).location with
    | error x => simp [Except.map, vecEntry]; ring
    | ok a => simp [Except.map, vecEntry, reflect]
  simp only [h2] at h1
  rw [integral_sub (integrable_const _) hint] at h1
  simp at h1
  linarith

end Random

/-! ## Which estimators reflect with the data -/

theorem orth_eye : Orth (1 : Matrix ι ι ℝ) := ⟨by simp, by simp⟩

theorem reflect_of_similarity {C : Cls ι ℝ} {p : C.Param} (d : Bool) (c : ι → ℝ)
    (h : Transports C C p p (affine ((-1:ℝ) • (1 : Matrix ι ι ℝ)) (2 • c)) (affine ((-1:ℝ) • (1 : Matrix ι ι ℝ)) (offset d (2 • c)))
      (fun a => (-1:ℝ) ^ 2 • ((1 : Matrix ι ι ℝ) * a * (1 : Matrix ι ι ℝ)ᵀ))) :
    Transports C C p p (reflect c) (reflect (offset d c)) id := by
  have e : ∀ c : ι → ℝ, affine ((-1:ℝ) • (1 : Matrix ι ι ℝ)) (2 • c) = reflect c := by
    intro c
    funext x i
    simp only [affine, reflect, neg_smul, one_smul, Matrix.neg_mulVec, Matrix.one_mulVec, Pi.add_apply, Pi.neg_apply, Pi.smul_apply]
    simp
    ring
  have e2 : (fun a => (-1:ℝ) ^ 2 • ((1 : Matrix ι ι ℝ) * a * (1 : Matrix ι ι ℝ)ᵀ)) = id := by
    funext a; simp
  have e3 : offset d (2 • c) = 2 • offset d c := by cases d <;> simp [offset]
  rw [e3, e, e, e2] at h
  exact h

/-- C129: the robust estimators (and the linear ones) reflect with the data, `covariance_` staying what it was. With
differencing the centre is the origin. -/
theorem C129_reflects (L : Lapack) (c : ι → ℝ) (p : RParam ℝ) (ph : HuberParam) (pa : AdaParam) (ps : ShrunkParam) (hs : ps.target = "identity") :
    Transports (huberCls L ι) (huberCls L ι) ph ph (reflect c) (reflect (offset ph.diff c)) id ∧
    Transports (adaptiveCls L ι) (adaptiveCls L ι) pa pa (reflect c) (reflect (offset pa.diff c)) id ∧
    Transports (ledoitWolfCls ι ℝ) (ledoitWolfCls ι ℝ) p p (reflect c) (reflect (offset p.diff c)) id ∧
    Transports (oasCls ι ℝ) (oasCls ι ℝ) p p (reflect c) (reflect (offset p.diff c)) id ∧
    Transports (shrunkCls ι) (shrunkCls ι) ps ps (reflect c) (reflect (offset ps.diff c)) id :=
  have h : (-1:ℝ) ≠ 0 := by norm_num
  ⟨reflect_of_similarity _ c (C65_huber_similarity orth_eye h (2 • c) L ph),
   reflect_of_similarity _ c (C65_adaptive_similarity orth_eye h (2 • c) L pa),
   reflect_of_similarity _ c (C65_ledoitWolf_similarity orth_eye h (2 • c) p),
   reflect_of_similarity _ c (C65_oas_similarity orth_eye h (2 • c) p),
   reflect_of_similarity _ c (C65_shrunk_identity_similarity orth_eye h (2 • c) ps hs)⟩

/-! ## The exception: ShrunkCovariance with the constant-correlation target -/

section Exception

/-- two observations on the line through `v` -/
def lineRows (s : ℝ) : List (Fin 3 → ℝ) := [![1, 1, s], ![-1, -1, -s]]

theorem line_ewa (s : ℝ) : ((new (ewaCls (Fin 3) ℝ) ⟨1/20, false⟩).run [.partialFit (.batch (lineRows s))]).covariance
    = .ok !![1, 1, s; 1, 1, s; s, s, s * s] := by
  have hu : used false [Call.partialFit (.batch (lineRows s))] = lineRows s := by simp [used, effective, rowsSinceFit, rowsOf]
  rw [(ewa_attrs (⟨1/20, false⟩ : RParam ℝ) [.partialFit (.batch (lineRows s))] (by show used false _ ≠ []; rw [hu]; simp [lineRows])).2]
  show Except.ok (ewaFold (1/20) (used false _)).cov = _
  rw [hu]
  congr 1
  rw [ewaFold_burn (1/20 : ℝ) (lineRows s) (by have := (C19_burn_length (1/20 : ℝ) (by norm_num)).2.2.1; have e : (lineRows s).length = 2 := rfl; omega),
    empFold_cov (by simp [lineRows])]
  ext i j
  fin_cases i <;> fin_cases j <;> simp [covOf, meanOf, lineRows] <;> ring

/-- C129: what ShrunkCovariance with the constant-correlation target reports for the pair (0, 2) on these data, `s = ±1`. -/
theorem C129_constant_target (δ s : ℝ) (hs : s = 1 ∨ s = -1) (T : String) (hT : T ≠ "identity") :
    ∃ a, ((new (shrunkCls (Fin 3)) ⟨1/20, δ, T, false⟩).run [.partialFit (.batch (lineRows s))]).covariance = .ok a ∧
      a 0 2 = (1 - δ) * s + δ * ((1 + 2 * s) / 3) := by
  have hu : used false [Call.partialFit (.batch (lineRows s))] = lineRows s := by simp [used, effective, rowsSinceFit, rowsOf]
  have hss : s * s = 1 := by rcases hs with rfl | rfl <;> norm_num
  have hc := run_covariance (shrunk_lawful (Fin 3)) (⟨1/20, δ, T, false⟩ : ShrunkParam) [.partialFit (.batch (lineRows s))]
    (by show used false _ ≠ []; rw [hu]; simp [lineRows])
  refine ⟨_, hc, ?_⟩
  obtain ⟨-, h2⟩ := shrunk_attrs (⟨1/20, δ, T, false⟩ : ShrunkParam) _ _ _ hc (line_ewa s)
  rw [h2, hss, if_neg hT]
  have hsd : ∀ i, flooredSd (!![1, 1, s; 1, 1, s; s, s, 1] : Matrix (Fin 3) (Fin 3) ℝ) i = 1 := by
    intro i
    have : (!![1, 1, s; 1, 1, s; s, s, 1] : Matrix (Fin 3) (Fin 3) ℝ) i i = 1 := by fin_cases i <;> rfl
    unfold flooredSd
    rw [this, max_eq_left (by norm_num), Real.sqrt_one]
  have hr : avgCorr (!![1, 1, s; 1, 1, s; s, s, 1] : Matrix (Fin 3) (Fin 3) ℝ) = (1 + 2 * s) / 3 := by
    unfold avgCorr
    simp only [hsd]
    simp [Fin.sum_univ_three]
    ring
  simp only [hsd, hr, toSymmetric, of_apply, Matrix.add_apply, Matrix.smul_apply, smul_eq_mul]
  simp

/-- C129: so ShrunkCovariance with that target does depend on the sign of a column, for every intensity `δ ≠ 0` ... -/
theorem C129_shrunk_depends_on_signs (δ : ℝ) (hδ : δ ≠ 0) (T : String) (hT : T ≠ "identity") :
    ¬ Transports (shrunkCls (Fin 3)) (shrunkCls (Fin 3)) (⟨1/20, δ, T, false⟩ : ShrunkParam) (⟨1/20, δ, T, false⟩ : ShrunkParam)
      (flipVec ![1, 1, -1]) (flipVec ![1, 1, -1]) (flipMat ![1, 1, -1]) := by
  intro h
  obtain ⟨-, -, hc⟩ := h [.partialFit (.batch (lineRows 1))]
  obtain ⟨a, ha, h1⟩ := C129_constant_target δ 1 (Or.inl rfl) T hT
  obtain ⟨b, hb, h2⟩ := C129_constant_target δ (-1) (Or.inr rfl) T hT
  have e : [Call.partialFit (.batch (lineRows 1))].map (mapCall (flipVec ![1, 1, -1])) = [Call.partialFit (.batch (lineRows (-1)))] := by
    have : (lineRows 1).map (flipVec ![1, 1, -1]) = lineRows (-1) := by
      simp only [lineRows, List.map_cons, List.map_nil]
      congr 1
      · ext i; fin_cases i <;> simp [flipVec]
      · congr 1
        ext i; fin_cases i <;> simp [flipVec]
    simp only [List.map_cons, List.map_nil, mapCall, this]
  rw [e, ha, hb] at hc
  have hc := congrFun (congrFun (Except.ok.inj hc) 0) 2
  have h3 : flipMat (![1, 1, -1] : Fin 3 → ℝ) a 0 2 = -(a 0 2) := by simp [flipMat]
  rw [h3, h1, h2] at hc
  apply hδ
  linarith

/-- C129: ... and it reports covariance for noise: of two equally likely data sets in which column 2 is, sign by sign,
independent of column 0, the average of the reported covariance of columns 0 and 2 is `δ / 3` (and not 0). -/
theorem C129_shrunk_reports_noise (δ : ℝ) (T : String) (hT : T ≠ "identity") :
    ∃ a b, ((new (shrunkCls (Fin 3)) ⟨1/20, δ, T, false⟩).run [.partialFit (.batch (lineRows 1))]).covariance = .ok a ∧
      ((new (shrunkCls (Fin 3)) ⟨1/20, δ, T, false⟩).run [.partialFit (.batch (lineRows (-1)))]).covariance = .ok b ∧
      (a 0 2 + b 0 2) / 2 = δ / 3 := by
  obtain ⟨a, ha, h1⟩ := C129_constant_target δ 1 (Or.inl rfl) T hT
  obtain ⟨b, hb, h2⟩ := C129_constant_target δ (-1) (Or.inr rfl) T hT
  refine ⟨a, b, ha, hb, ?_⟩
  rw [h1, h2]; ring

end Exception

/-! ## Non-vacuity -/

section Example

theorem signs_demo : Signs (![1, -1] : Fin 2 → ℝ) := by
  intro i; fin_cases i <;> simp

/-- a fair coin decides the sign of column 1 -/
noncomputable def coin : Measure Bool := (2⁻¹ : ENNReal) • Measure.count

theorem coin_swap : MeasurePreserving (MeasurableEquiv.ofInvolutive (fun b : Bool => !b) (fun b => by simp) (measurable_from_top)) coin coin := by
  refine ⟨MeasurableEquiv.measurable _, ?_⟩
  unfold coin
  rw [Measure.map_smul]
  congr 1
  ext s hs
  rw [Measure.map_apply (MeasurableEquiv.measurable _) hs]
  rw [Measure.count_apply (MeasurableSet.of_discrete), Measure.count_apply hs]
  rw [Set.encard_preimage_of_bijective (MeasurableEquiv.bijective _)]

example (L : Lapack) (ph : HuberParam) : ∫ ω, matEntry ((new (huberCls L (Fin 2)) ph).run
    (if ω then [.partialFit (.row ![1, 2]), .partialFit (.row ![-3, 5])] else [.partialFit (.row ![1, -2]), .partialFit (.row ![-3, -5])])).covariance 0 1 ∂coin = 0 := by
  refine C129_zero_mean (w := ![1, -1]) (C129_huber signs_demo L ph) ⟨_, coin_swap, ?_⟩ (by simp)
  have h1 : ∀ a b : ℝ, flipVec ![1, -1] ![a, b] = ![a, -b] := by
    intro a b; ext i; fin_cases i <;> simp [flipVec]
  intro ω
  have h2 : ∀ b : Bool, (MeasurableEquiv.ofInvolutive (fun b : Bool => !b) (fun b => by simp) (measurable_from_top)) b = !b := fun b => rfl
  rw [h2]
  cases ω <;> simp [mapCall, h1]

end Example

end Precise
