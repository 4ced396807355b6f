import Verif.Props.Emp
import Mathlib.Algebra.Order.Floor.Ring
import Mathlib.Algebra.Order.Archimedean.Basic
import Mathlib.Algebra.Order.Archimedean.Real.Basic
import Mathlib.Data.List.GetD

/-!
# C17, C19–C23: EwaCovariance (and affine equivariance of EmpiricalCovariance)

Over an arbitrary ordered field with floor (ℚ, ℝ). `used diff calls` are the observations used.
-/

set_option linter.all false

open Matrix

namespace Precise

open Spec Obj

variable {ι κ K : Type} [Fintype ι] [Fintype κ] [Field K] [LinearOrder K] [IsStrictOrderedRing K] [FloorRing K]

/-- the EWA state after a stream -/
def ewaFold (r : K) (xs : List (ι → K)) : EwaState ι K := xs.foldl ewaUpdate (ewaInit r)

theorem ewaFold_snoc (r : K) (xs : List (ι → K)) (x : ι → K) : ewaFold r (xs ++ [x]) = ewaUpdate (ewaFold r xs) x := by
  simp [ewaFold]

theorem ewaFold_n (r : K) (xs : List (ι → K)) : (ewaFold r xs).nSamples = xs.length := by
  induction xs using List.reverseRecOn with
  | nil => rfl
  | append_singleton xs x ih => rw [ewaFold_snoc]; simp [ih]

theorem ewaFold_r (r : K) (xs : List (ι → K)) : (ewaFold r xs).r = r := by
  induction xs using List.reverseRecOn with
  | nil => rfl
  | append_singleton xs x ih => rw [ewaFold_snoc]; simp [ih]

theorem ewaFold_nBurn (r : K) (xs : List (ι → K)) : (ewaFold r xs).nBurn = ewaBurnN r := by
  induction xs using List.reverseRecOn with
  | nil => rfl
  | append_singleton xs x ih => rw [ewaFold_snoc]; simp [ih]

theorem symm_empUpdate {s : EmpState ι K} (h : Symm s.cov) (x : ι → K) : Symm (empUpdate s x).cov := by
  rw [empUpdate_cov]; exact (h.smul _).add ((symm_outer _).smul _)

theorem symm_ewaUpdate {s : EwaState ι K} (h : Symm s.cov) (x : ι → K) : Symm (ewaUpdate s x).cov := by
  unfold ewaUpdate; split
  · exact symm_empUpdate h x
  · exact (h.smul _).add ((symm_outer _).smul _)

theorem symm_ewaFold (r : K) (xs : List (ι → K)) : Symm (ewaFold r xs).cov := by
  induction xs using List.reverseRecOn with
  | nil => exact symm_zero
  | append_singleton xs x ih => rw [ewaFold_snoc]; exact symm_ewaUpdate ih x

theorem ewaUpdate_burn {s : EwaState ι K} (h : s.nSamples < s.nBurn) (x : ι → K) :
    (ewaUpdate s x).toEmpState = empUpdate s.toEmpState x := by
  simp [ewaUpdate, h, ewaBurnStep]

theorem ewaUpdate_post {s : EwaState ι K} (h : s.nBurn ≤ s.nSamples) (x : ι → K) :
    (ewaUpdate s x).toEmpState = ewaBlend s.r s.toEmpState x := by
  simp [ewaUpdate, not_lt.2 h]

/-- during the burn-in the EWA state is the empirical state -/
theorem ewaFold_burn (r : K) (xs : List (ι → K)) (h : xs.length ≤ ewaBurnN r) :
    (ewaFold r xs).toEmpState = empFold xs := by
  induction xs using List.reverseRecOn with
  | nil => rfl
  | append_singleton xs x ih =>
    simp only [List.length_append, List.length_singleton] at h
    rw [ewaFold_snoc, ewaUpdate_burn (by rw [ewaFold_n, ewaFold_nBurn]; omega), ih (by omega), empFold_snoc]

/-- Attributes of EwaCovariance after any history. -/
theorem ewa_attrs (p : RParam K) (calls : List (Call ι K)) (h : used p.diff calls ≠ []) :
    ((new (ewaCls ι K) p).run calls).location = .ok (ewaFold p.r (used p.diff calls)).mean ∧
    ((new (ewaCls ι K) p).run calls).covariance = .ok (ewaFold p.r (used p.diff calls)).cov := by
  refine ⟨run_location (ewa_lawful ι K) p calls h, ?_⟩
  rw [run_covariance (ewa_lawful ι K) p calls h]
  congr 1
  exact toSymmetric_of_symm (symm_ewaFold p.r _)

theorem ewa_attrs_inv (p : RParam K) (calls : List (Call ι K)) (c : Matrix ι ι K)
    (h : ((new (ewaCls ι K) p).run calls).covariance = .ok c) :
    used p.diff calls ≠ [] ∧ c = (ewaFold p.r (used p.diff calls)).cov := by
  have hne : used p.diff calls ≠ [] := (run_covariance_inv (ewa_lawful ι K) p calls c h).1
  rw [(ewa_attrs p calls hne).2] at h
  exact ⟨hne, (Except.ok.inj h).symm⟩

/-! ## C17 affine equivariance -/

/-- The calls with every row mapped by `x ↦ A x + b`. -/
def mapCall (f : (ι → K) → κ → K) : Call ι K → Call κ K
  | .partialFit (.row x) => .partialFit (.row (f x))
  | .partialFit (.batch xs) => .partialFit (.batch (xs.map f))
  | .partialFit (.other n) => .partialFit (.other n)
  | .fit (.row x) => .fit (.row (f x))
  | .fit (.batch xs) => .fit (.batch (xs.map f))
  | .fit (.other n) => .fit (.other n)

omit [LinearOrder K] [IsStrictOrderedRing K] [FloorRing K] [Fintype κ] [Fintype ι] in
theorem rowsSinceFit_map (f : (ι → K) → κ → K) (calls : List (Call ι K)) (acc : List (ι → K)) :
    rowsSinceFit (calls.map (mapCall f)) (acc.map f) = (rowsSinceFit calls acc).map f := by
  induction calls generalizing acc with
  | nil => rfl
  | cons c cs ih =>
    cases c with
    | partialFit X =>
      have : rowsOf (match mapCall f (.partialFit X) with | .partialFit Y => Y | .fit Y => Y) = (rowsOf X).map f := by
        cases X <;> rfl
      cases X with
      | row x => simp only [List.map_cons, mapCall, rowsSinceFit, rowsOf]; rw [← ih]; simp
      | batch xs => simp only [List.map_cons, mapCall, rowsSinceFit, rowsOf]; rw [← ih]; simp
      | other n => simp only [List.map_cons, mapCall, rowsSinceFit, rowsOf]; rw [← ih]; simp
    | fit X =>
      cases X with
      | row x => simp only [List.map_cons, mapCall, rowsSinceFit]; rw [← ih]; rfl
      | batch xs => simp only [List.map_cons, mapCall, rowsSinceFit]; rw [← ih]
      | other n => simp only [List.map_cons, mapCall, rowsSinceFit]; rw [← ih]; rfl

theorem diffs_affine (A : Matrix κ ι K) (b : κ → K) (xs : List (ι → K)) :
    diffs (xs.map (affine A b)) = (diffs xs).map (affine A 0) := by
  induction xs with
  | nil => rfl
  | cons x t ih =>
    cases t with
    | nil => rfl
    | cons y t =>
      simp only [List.map_cons, diffs] at ih ⊢
      rw [ih, affine_sub]
      simp [affine]

/-- the offset seen by the estimator: differences remove it -/
def offset (d : Bool) (b : κ → K) : κ → K := if d then 0 else b

theorem used_affine (d : Bool) (A : Matrix κ ι K) (b : κ → K) (calls : List (Call ι K)) :
    used d (calls.map (mapCall (affine A b))) = (used d calls).map (affine A (offset d b)) := by
  have := rowsSinceFit_map (affine A b) calls []
  simp only [List.map_nil] at this
  cases d
  · simp [used, effective, this, offset]
  · simp [used, effective, this, offset, diffs_affine]

theorem emp_affine_step (A : Matrix κ ι K) (b : κ → K) (s : EmpState ι K) (t : EmpState κ K) (x : ι → K)
    (hn : t.nSamples = s.nSamples) (hm : t.mean = affine A b s.mean) (hc : t.cov = A * s.cov * Aᵀ) :
    (empUpdate t (affine A b x)).mean = affine A b (empUpdate s x).mean ∧
    (empUpdate t (affine A b x)).cov = A * (empUpdate s x).cov * Aᵀ := by
  constructor
  · rw [empUpdate_mean, empUpdate_mean, hn, hm, affine_combo _ _ _ _ _ _ (by ring)]
  · rw [empUpdate_cov, empUpdate_cov, hn, hm, hc, affine_sub, Matrix.mul_add, Matrix.add_mul, Matrix.mul_smul,
      Matrix.mul_smul, Matrix.smul_mul, Matrix.smul_mul, congr_outer]

theorem emp_affine_first (A : Matrix κ ι K) (b : κ → K) (x : ι → K) :
    (empUpdate empInit (affine A b x)).mean = affine A b (empUpdate empInit x).mean ∧
    (empUpdate empInit (affine A b x)).cov = A * (empUpdate empInit x).cov * Aᵀ := by
  constructor
  · rw [empUpdate_mean, empUpdate_mean]
    have e : ∀ {τ : Type} (z : τ → K), (fun i => (1 - 1 / (((empInit : EmpState τ K).nSamples : K) + 1)) *
      (empInit : EmpState τ K).mean i + 1 / (((empInit : EmpState τ K).nSamples : K) + 1) * z i) = z := by
      intro τ z; ext i; simp [empInit]
    rw [e, e]
  · rw [empUpdate_cov, empUpdate_cov]
    simp [empInit]

theorem ewaFold_affine (r : K) (A : Matrix κ ι K) (b : κ → K) (xs : List (ι → K)) (h : xs ≠ []) :
    (ewaFold r (xs.map (affine A b))).mean = affine A b (ewaFold r xs).mean ∧
    (ewaFold r (xs.map (affine A b))).cov = A * (ewaFold r xs).cov * Aᵀ := by
  induction xs using List.reverseRecOn with
  | nil => exact absurd rfl h
  | append_singleton xs x ih =>
    rw [List.map_append, List.map_singleton, ewaFold_snoc, ewaFold_snoc]
    have n1 := ewaFold_n r xs
    have n2 := ewaFold_n r (xs.map (affine A b))
    have b1 := ewaFold_nBurn r xs
    have b2 := ewaFold_nBurn r (xs.map (affine A b))
    rw [List.length_map] at n2
    by_cases hb : xs.length < ewaBurnN r
    · have u1 := ewaUpdate_burn (s := ewaFold r xs) (by rw [n1, b1]; exact hb) x
      have u2 := ewaUpdate_burn (s := ewaFold r (xs.map (affine A b))) (by rw [n2, b2]; exact hb) (affine A b x)
      rw [u1, u2]
      by_cases hx : xs = []
      · subst hx
        exact emp_affine_first A b x
      · obtain ⟨hm, hc⟩ := ih hx
        exact emp_affine_step A b _ _ x (by rw [n1, n2]) hm hc
    · have u1 := ewaUpdate_post (s := ewaFold r xs) (by rw [n1, b1]; omega) x
      have u2 := ewaUpdate_post (s := ewaFold r (xs.map (affine A b))) (by rw [n2, b2]; omega) (affine A b x)
      rw [u1, u2, ewaFold_r, ewaFold_r]
      by_cases hx : xs = []
      · subst hx
        exfalso
        have : 5 ≤ ewaBurnN r := by
          unfold ewaBurnN
          have : (5:ℤ) ≤ min 250 (max 5 ⌈1 / r⌉) := le_min (by norm_num) (le_max_left _ _)
          omega
        simp at hb; omega
      · obtain ⟨hm, hc⟩ := ih hx
        constructor
        · simp only [ewaBlend, hm]
          rw [affine_combo A b _ _ _ _ (by ring)]
        · show (1 - r) • _ + r • outer _ _ = A * ((1 - r) • _ + r • outer _ _) * Aᵀ
          have e : (fun i => affine A b x i - (ewaFold r (xs.map (affine A b))).mean i)
              = A *ᵥ (fun i => x i - (ewaFold r xs).mean i) := by
            have := affine_sub A b x (ewaFold r xs).mean
            rw [← hm] at this
            exact this
          rw [e, hc, Matrix.mul_add, Matrix.add_mul, Matrix.mul_smul, Matrix.mul_smul, Matrix.smul_mul,
            Matrix.smul_mul, congr_outer]

/-- C17: EwaCovariance is affine equivariant: for every matrix `A` (any shape) and offset `b`, feeding `A x + b` in
the same calls turns `location_` into `A m + b` (`A m` on differences) and `covariance_` into `A C Aᵀ`. -/
theorem C17_ewa_affine (p : RParam K) (A : Matrix κ ι K) (b : κ → K) (calls : List (Call ι K))
    (h : used p.diff calls ≠ []) :
    ∃ m c, ((new (ewaCls ι K) p).run calls).location = .ok m ∧ ((new (ewaCls ι K) p).run calls).covariance = .ok c ∧
      ((new (ewaCls κ K) p).run (calls.map (mapCall (affine A b)))).location
        = .ok (A *ᵥ m + if p.diff then 0 else b) ∧
      ((new (ewaCls κ K) p).run (calls.map (mapCall (affine A b)))).covariance = .ok (A * c * Aᵀ) := by
  obtain ⟨h1, h2⟩ := ewa_attrs p calls h
  refine ⟨_, _, h1, h2, ?_⟩
  have hu := used_affine p.diff A b calls
  have hne : used p.diff (calls.map (mapCall (affine A b))) ≠ [] := by rw [hu]; simpa using h
  obtain ⟨g1, g2⟩ := ewa_attrs p (calls.map (mapCall (affine A b))) hne
  rw [hu] at g1 g2
  obtain ⟨e1, e2⟩ := ewaFold_affine p.r A (offset p.diff b) _ h
  rw [e1] at g1
  rw [e2] at g2
  exact ⟨g1, g2⟩

/-- C17: the same for EmpiricalCovariance. -/
theorem C17_empirical_affine (d : Bool) (A : Matrix κ ι K) (b : κ → K) (calls : List (Call ι K))
    (h : used d calls ≠ []) :
    ∃ m c, ((new (empiricalCls ι K) d).run calls).location = .ok m ∧
      ((new (empiricalCls ι K) d).run calls).covariance = .ok c ∧
      ((new (empiricalCls κ K) d).run (calls.map (mapCall (affine A b)))).location
        = .ok (A *ᵥ m + if d then 0 else b) ∧
      ((new (empiricalCls κ K) d).run (calls.map (mapCall (affine A b)))).covariance = .ok (A * c * Aᵀ) := by
  obtain ⟨h1, h2, -⟩ := C15_batch d calls h
  refine ⟨_, _, h1, h2, ?_⟩
  have hu := used_affine d A b calls
  have hne : used d (calls.map (mapCall (affine A b))) ≠ [] := by rw [hu]; simpa using h
  obtain ⟨g1, g2, -⟩ := C15_batch d (calls.map (mapCall (affine A b))) hne
  rw [g1, g2, hu]
  -- the same stream through Welford's update
  have key : ∀ xs : List (ι → K), xs ≠ [] → ∀ b : κ → K,
      (empFold (xs.map (affine A b))).mean = affine A b (empFold xs).mean ∧
      (empFold (xs.map (affine A b))).cov = A * (empFold xs).cov * Aᵀ := by
    intro xs
    induction xs using List.reverseRecOn with
    | nil => intro h; exact absurd rfl h
    | append_singleton xs x ih =>
      intro _ b
      rw [List.map_append, List.map_singleton, empFold_snoc, empFold_snoc]
      by_cases hx : xs = []
      · subst hx; exact emp_affine_first A b x
      · obtain ⟨hm, hc⟩ := ih hx b
        exact emp_affine_step A b _ _ x (by rw [empFold_n, empFold_n, List.length_map]) hm hc
  have hne' : (used d calls).map (affine A (offset d b)) ≠ [] := by simpa using h
  obtain ⟨k1, k2⟩ := key _ h (offset d b)
  rw [empFold_mean hne', empFold_mean h] at k1
  rw [empFold_cov hne', empFold_cov h] at k2
  exact ⟨congrArg _ k1, congrArg _ k2⟩

/-! ## C19 burn-in -/

/-- C19: the burn-in length is `min(250, max(5, ceil(1/r)))`, so it lies in [5, 250], it is at least `1/r` unless
capped at 250, and it is non-increasing in the decay rate. -/
theorem C19_burn_length (r : K) (hr : 0 < r) :
    ewaBurnN? r = .ok (ewaBurnN r) ∧
    ((ewaBurnN r : ℕ) : ℤ) = min 250 (max 5 ⌈1 / r⌉) ∧ 5 ≤ ewaBurnN r ∧ ewaBurnN r ≤ 250 ∧
    (ewaBurnN r < 250 → 1 / r ≤ (ewaBurnN r : K)) ∧
    (∀ r', r ≤ r' → ewaBurnN r' ≤ ewaBurnN r) := by
  have h5 : (5:ℤ) ≤ min 250 (max 5 ⌈1 / r⌉) := le_min (by norm_num) (le_max_left _ _)
  have h250 : min 250 (max 5 ⌈1 / r⌉) ≤ (250:ℤ) := min_le_left _ _
  have e : ((ewaBurnN r : ℕ) : ℤ) = min 250 (max 5 ⌈1 / r⌉) := by
    unfold ewaBurnN; exact Int.toNat_of_nonneg (by omega)
  refine ⟨by simp [ewaBurnN?, hr.ne'], e, by omega, by omega, ?_, ?_⟩
  · intro hlt
    have h1 : max 5 ⌈1 / r⌉ < 250 := by
      by_contra hc
      push Not at hc
      rw [min_eq_left hc] at e
      omega
    have h2 : ⌈1 / r⌉ ≤ (ewaBurnN r : ℤ) := by
      rw [e, min_eq_right h1.le]; exact le_max_right _ _
    have h3 : ((⌈1 / r⌉ : ℤ) : K) ≤ ((ewaBurnN r : ℤ) : K) := Int.cast_le.2 h2
    have h4 := Int.le_ceil (1 / r)
    refine h4.trans (h3.trans (le_of_eq ?_))
    push_cast; rfl
  · intro r' h
    have : ⌈1 / r'⌉ ≤ ⌈1 / r⌉ := Int.ceil_le_ceil (one_div_le_one_div_of_le hr h)
    unfold ewaBurnN
    have : min 250 (max 5 ⌈1 / r'⌉) ≤ min 250 (max 5 ⌈1 / r⌉) := min_le_min le_rfl (max_le_max le_rfl this)
    omega

/-- C19: the same formula for every rate but 0; a negative rate gets the shortest burn-in. -/
theorem C19_burn_length_any (r : K) (hr : r ≠ 0) :
    ewaBurnN? r = .ok (ewaBurnN r) ∧ ((ewaBurnN r : ℕ) : ℤ) = min 250 (max 5 ⌈1 / r⌉) ∧ 5 ≤ ewaBurnN r ∧ ewaBurnN r ≤ 250 ∧ (r < 0 → ewaBurnN r = 5) := by
  have h5 : (5:ℤ) ≤ min 250 (max 5 ⌈1 / r⌉) := le_min (by norm_num) (le_max_left _ _)
  have h250 : min 250 (max 5 ⌈1 / r⌉) ≤ (250:ℤ) := min_le_left _ _
  have e : ((ewaBurnN r : ℕ) : ℤ) = min 250 (max 5 ⌈1 / r⌉) := by
    unfold ewaBurnN; exact Int.toNat_of_nonneg (by omega)
  refine ⟨by simp [ewaBurnN?, hr], e, by omega, by omega, fun hneg => ?_⟩
  have h1 : ⌈1 / r⌉ ≤ 0 := Int.ceil_le.2 (by simpa using (one_div_neg.2 hneg).le)
  rw [max_eq_left (by omega)] at e
  have : min (250:ℤ) 5 = 5 := by norm_num
  omega

/-- C19 (limit): a decay rate of 0 raises ZeroDivisionError at the first observation. -/
theorem C19_zero_rate : ewaBurnN? (0 : K) = .error .zeroDivision := by simp [ewaBurnN?]

/-- C19: while the number of observations used is at most the burn-in length, EwaCovariance reports exactly
what EmpiricalCovariance reports on the same calls. -/
theorem C19_burn_in_is_empirical (p : RParam K) (calls : List (Call ι K))
    (h : (used p.diff calls).length ≤ ewaBurnN p.r) :
    ((new (ewaCls ι K) p).run calls).location = ((new (empiricalCls ι K) p.diff).run calls).location ∧
    ((new (ewaCls ι K) p).run calls).covariance = ((new (empiricalCls ι K) p.diff).run calls).covariance ∧
    ((new (ewaCls ι K) p).run calls).nSamples = ((new (empiricalCls ι K) p.diff).run calls).nSamples := by
  have hn : ((new (ewaCls ι K) p).run calls).nSamples = ((new (empiricalCls ι K) p.diff).run calls).nSamples :=
    (C04_n_samples (ewa_lawful ι K) p calls).trans (C04_n_samples (empirical_lawful ι K) p.diff calls).symm
  by_cases hne : used p.diff calls = []
  · have h1 := C06_not_fitted_iff (ewa_lawful ι K) p calls
    have h2 := C06_not_fitted_iff (empirical_lawful ι K) p.diff calls
    have n1 := h1.1.2 hne
    have n2 := h2.1.2 hne
    exact ⟨by rw [(h1.2.1 n1).1, (h2.2.1 n2).1], by rw [(h1.2.1 n1).2, (h2.2.1 n2).2], hn⟩
  · obtain ⟨h1, h2⟩ := ewa_attrs p calls hne
    obtain ⟨g1, g2, -⟩ := C15_batch p.diff calls hne
    refine ⟨?_, ?_, hn⟩
    · rw [h1, g1, ewaFold_burn _ _ h, empFold_mean hne]
    · rw [h2, g2, ewaFold_burn _ _ h, empFold_cov hne]

/-! ## C20 closed form -/

theorem ewaFold_post_mean (r : K) (burn : List (ι → K)) (hb : burn.length = ewaBurnN r) (y : ℕ → ι → K) (k : ℕ) (i : ι) :
    (ewaFold r (burn ++ (List.range k).map y)).mean i
      = (1 - r) ^ k * (empFold burn).mean i + ∑ t ∈ Finset.range k, r * (1 - r) ^ (k - 1 - t) * y t i := by
  induction k with
  | zero => simp [ewaFold_burn r burn hb.le]
  | succ k ih =>
    rw [List.range_succ, List.map_append, ← List.append_assoc, List.map_singleton, ewaFold_snoc,
      ewaUpdate_post (by rw [ewaFold_n, ewaFold_nBurn]; simp [hb]), ewaFold_r]
    simp only [ewaBlend, ih]
    rw [Finset.sum_range_succ, mul_add, Finset.mul_sum]
    have : ∀ t ∈ Finset.range k, (1 - r) * (r * (1 - r) ^ (k - 1 - t) * y t i) = r * (1 - r) ^ (k + 1 - 1 - t) * y t i := by
      intro t ht
      have ht := Finset.mem_range.1 ht
      have e : k + 1 - 1 - t = (k - 1 - t) + 1 := by omega
      rw [e, pow_succ]; ring
    rw [Finset.sum_congr rfl this]
    have e2 : k + 1 - 1 - k = 0 := by omega
    rw [e2, pow_succ]; ring

theorem ewaFold_post_cov (r : K) (burn : List (ι → K)) (hb : burn.length = ewaBurnN r) (y : ℕ → ι → K) (k : ℕ) :
    (ewaFold r (burn ++ (List.range k).map y)).cov
      = (1 - r) ^ k • (empFold burn).cov + ∑ t ∈ Finset.range k, (r * (1 - r) ^ (k - 1 - t)) •
          outer (y t - (ewaFold r (burn ++ (List.range t).map y)).mean) (y t - (ewaFold r (burn ++ (List.range t).map y)).mean) := by
  induction k with
  | zero => simp [ewaFold_burn r burn hb.le]
  | succ k ih =>
    rw [List.range_succ, List.map_append, ← List.append_assoc, List.map_singleton, ewaFold_snoc,
      ewaUpdate_post (by rw [ewaFold_n, ewaFold_nBurn]; simp [hb]), ewaFold_r]
    show (1 - r) • (ewaFold r (burn ++ (List.range k).map y)).cov + r • outer _ _ = _
    rw [ih, Finset.sum_range_succ, smul_add, Finset.smul_sum, smul_smul]
    have : ∀ t ∈ Finset.range k, (1 - r) • ((r * (1 - r) ^ (k - 1 - t)) •
          outer (y t - (ewaFold r (burn ++ (List.range t).map y)).mean) (y t - (ewaFold r (burn ++ (List.range t).map y)).mean))
        = (r * (1 - r) ^ (k + 1 - 1 - t)) •
          outer (y t - (ewaFold r (burn ++ (List.range t).map y)).mean) (y t - (ewaFold r (burn ++ (List.range t).map y)).mean) := by
      intro t ht
      have ht := Finset.mem_range.1 ht
      have e : k + 1 - 1 - t = (k - 1 - t) + 1 := by omega
      rw [e, pow_succ, smul_smul]; congr 1; ring
    rw [Finset.sum_congr rfl this]
    have e2 : k + 1 - 1 - k = 0 := by omega
    rw [e2, pow_zero, mul_one, ← add_assoc, pow_succ']
    rfl

/-- C20: after a burn-in `b₁ … b_b` of exactly the burn-in length followed by `y₀ … y_{k-1}`, `location_` is the weighted
average with weight `(1-r)^k / b` on each burn-in row and `r (1-r)^(k-1-t)` on `y_t`; the weights add up to one. -/
theorem C20_location (p : RParam K) (calls : List (Call ι K)) (burn : List (ι → K)) (y : ℕ → ι → K) (k : ℕ)
    (hb : burn.length = ewaBurnN p.r) (hr : 0 < p.r) (hu : used p.diff calls = burn ++ (List.range k).map y) :
    ((new (ewaCls ι K) p).run calls).location = .ok (fun i =>
      (1 - p.r) ^ k / (ewaBurnN p.r : K) * (burn.map fun x => x i).sum
        + ∑ t ∈ Finset.range k, p.r * (1 - p.r) ^ (k - 1 - t) * y t i) ∧
    (1 - p.r) ^ k / (ewaBurnN p.r : K) * burn.length + ∑ t ∈ Finset.range k, p.r * (1 - p.r) ^ (k - 1 - t) = 1 := by
  have h5 := (C19_burn_length p.r hr).2.2.1
  have hbn : burn ≠ [] := by intro h; rw [h] at hb; simp at hb; omega
  have hb0 : ((ewaBurnN p.r : ℕ) : K) ≠ 0 := by exact_mod_cast (by omega : ewaBurnN p.r ≠ 0)
  have hne : used p.diff calls ≠ [] := by rw [hu]; simp [hbn]
  constructor
  · rw [(ewa_attrs p calls hne).1, hu]
    congr 1
    ext i
    rw [ewaFold_post_mean p.r burn hb y k i, empFold_mean hbn]
    simp only [meanOf, hb]
    ring
  · have hw : ∀ k : ℕ, ∑ t ∈ Finset.range k, p.r * (1 - p.r) ^ (k - 1 - t) = 1 - (1 - p.r) ^ k := by
      intro k
      have h1 := Finset.sum_range_reflect (fun t => p.r * (1 - p.r) ^ t) k
      rw [h1, ← Finset.mul_sum]
      have := mul_neg_geom_sum (1 - p.r) k
      linear_combination this
    rw [hw k, hb]
    field_simp
    ring

/-- C20: `covariance_` is `(1-r)^k` times the batch covariance of the burn-in plus the same weights on the outer products
of the innovations `y_t - location_` (the location reported just before `y_t`). -/
theorem C20_covariance (p : RParam K) (hd : p.diff = false) (burn : List (ι → K)) (y : ℕ → ι → K) (k : ℕ)
    (hb : burn.length = ewaBurnN p.r) (hr : 0 < p.r) (m : ℕ → ι → K)
    (hm : ∀ t < k, ((new (ewaCls ι K) p).run [.partialFit (.batch (burn ++ (List.range t).map y))]).location = .ok (m t)) :
    ((new (ewaCls ι K) p).run [.partialFit (.batch (burn ++ (List.range k).map y))]).covariance
      = .ok ((1 - p.r) ^ k • covOf burn
          + ∑ t ∈ Finset.range k, (p.r * (1 - p.r) ^ (k - 1 - t)) • outer (y t - m t) (y t - m t)) := by
  have h5 := (C19_burn_length p.r hr).2.2.1
  have hbn : burn ≠ [] := by intro h; rw [h] at hb; simp at hb; omega
  have hu : ∀ t, used p.diff [Call.partialFit (.batch (burn ++ (List.range t).map y))] = burn ++ (List.range t).map y := by
    intro t; simp [used, effective, hd, rowsSinceFit, rowsOf]
  have hne : ∀ t, used p.diff [Call.partialFit (.batch (burn ++ (List.range t).map y))] ≠ [] := by
    intro t; rw [hu t]; simp [hbn]
  have hmt : ∀ t ∈ Finset.range k, (ewaFold p.r (burn ++ (List.range t).map y)).mean = m t := by
    intro t ht
    have := hm t (Finset.mem_range.1 ht)
    rw [(ewa_attrs p _ (hne t)).1, hu t] at this
    exact Except.ok.inj this
  rw [(ewa_attrs p _ (hne k)).2, hu k, ewaFold_post_cov p.r burn hb y k, empFold_cov hbn]
  congr 2
  exact Finset.sum_congr rfl fun t ht => by rw [hmt t ht]

/-! ## C21 PSD -/

theorem ewaUpdate_psd {s : EwaState ι K} (h0 : 0 ≤ s.r) (h1 : s.r ≤ 1) (h : PSD s.cov) (x : ι → K) : PSD (ewaUpdate s x).cov := by
  unfold ewaUpdate; split
  · exact empUpdate_psd h x
  · exact ewaBlend_psd h0 h1 h x

theorem ewaFold_psd {r : K} (h0 : 0 ≤ r) (h1 : r ≤ 1) (xs : List (ι → K)) : PSD (ewaFold r xs).cov := by
  induction xs using List.reverseRecOn with
  | nil => exact psd_zero
  | append_singleton xs x ih => rw [ewaFold_snoc]; exact ewaUpdate_psd (by rwa [ewaFold_r]) (by rwa [ewaFold_r]) ih x

/-- C21: `covariance_` of EwaCovariance is symmetric PSD after any history, for `r` in [0, 1]. -/
theorem C21_psd (p : RParam K) (h0 : 0 ≤ p.r) (h1 : p.r ≤ 1) (calls : List (Call ι K)) (c : Matrix ι ι K)
    (h : ((new (ewaCls ι K) p).run calls).covariance = .ok c) : PSD c := by
  obtain ⟨hne, rfl⟩ := ewa_attrs_inv p calls c h
  exact ewaFold_psd h0 h1 _

/-- C21: once positive-definite, always positive-definite, for `r` in [0, 1), through any further rows. -/
theorem C21_stays_pd (p : RParam K) (h0 : 0 ≤ p.r) (h1 : p.r < 1) (calls : List (Call ι K)) (c : Matrix ι ι K)
    (h : ((new (ewaCls ι K) p).run calls).covariance = .ok c) (hc : PD c) (X : Input ι K) :
    ∃ c', ((new (ewaCls ι K) p).run (calls ++ [.partialFit X])).covariance = .ok c' ∧ PD c' := by
  obtain ⟨hne, rfl⟩ := ewa_attrs_inv p calls c h
  -- the further observations used
  have hrun : (new (ewaCls ι K) p).run (calls ++ [.partialFit X])
      = ((new (ewaCls ι K) p).run calls).feedRows (rowsOf X) := by
    rw [Obj.run, List.foldl_append]; simp only [List.foldl_cons, List.foldl_nil]
    exact partialFit_fst _ _
  have happ : ∀ (cs : List (Call ι K)) (acc ys : List (ι → K)), rowsSinceFit (cs ++ [Call.partialFit X]) acc
      = rowsSinceFit cs acc ++ rowsOf X := by
    intro cs
    induction cs with
    | nil => intro acc ys; simp [rowsSinceFit]
    | cons c cs ih =>
      intro acc ys
      cases c with
      | partialFit Z => simp only [List.cons_append, rowsSinceFit]; exact ih _ ys
      | fit Z => cases Z <;> (simp only [List.cons_append, rowsSinceFit]; exact ih _ ys)
  have hdapp : ∀ (a b : List (ι → K)), ∃ z, diffs (a ++ b) = diffs a ++ z := by
    intro a
    induction a with
    | nil => intro b; exact ⟨diffs b, rfl⟩
    | cons x t ih =>
      intro b
      cases t with
      | nil => exact ⟨diffs (x :: b), rfl⟩
      | cons y t =>
        obtain ⟨z, hz⟩ := ih b
        exact ⟨z, by simp only [List.cons_append, diffs] at hz ⊢; rw [hz]⟩
  obtain ⟨z, hz⟩ : ∃ z, used p.diff (calls ++ [Call.partialFit X]) = used p.diff calls ++ z := by
    unfold used
    rw [happ calls [] []]
    cases p.diff with
    | false => exact ⟨rowsOf X, rfl⟩
    | true => exact hdapp _ _
  have hne' : used p.diff (calls ++ [Call.partialFit X]) ≠ [] := by rw [hz]; simp [hne]
  refine ⟨_, (ewa_attrs p _ hne').2, ?_⟩
  rw [hz]
  clear hz hne' hrun
  generalize used p.diff calls = xs at *
  induction z using List.reverseRecOn with
  | nil => simpa using hc
  | append_singleton z x ih =>
    rw [← List.append_assoc, ewaFold_snoc]
    unfold ewaUpdate
    split
    · refine empUpdate_pd ih ?_ x
      rw [ewaFold_n]
      have := List.length_pos_iff.2 hne
      simp; omega
    · refine ewaBlend_pd ?_ ?_ ih x
      · rw [ewaFold_r]; exact h0
      · rw [ewaFold_r]; exact h1

/-! ## C22 range -/

theorem ewaUpdate_range {s : EwaState ι K} (h0 : 0 ≤ s.r) (h1 : s.r ≤ 1) (x : ι → K) (i : ι) (lo hi : K)
    (hx : lo ≤ x i ∧ x i ≤ hi) (hs : lo ≤ s.mean i ∧ s.mean i ≤ hi) :
    lo ≤ (ewaUpdate s x).mean i ∧ (ewaUpdate s x).mean i ≤ hi := by
  have conv : ∀ a : K, 0 ≤ a → a ≤ 1 → lo ≤ (1 - a) * s.mean i + a * x i ∧ (1 - a) * s.mean i + a * x i ≤ hi := by
    intro a ha ha1
    have : 0 ≤ 1 - a := by linarith
    constructor
    · nlinarith [mul_le_mul_of_nonneg_left hs.1 this, mul_le_mul_of_nonneg_left hx.1 ha]
    · nlinarith [mul_le_mul_of_nonneg_left hs.2 this, mul_le_mul_of_nonneg_left hx.2 ha]
  unfold ewaUpdate; split
  · show lo ≤ (empUpdate s.toEmpState x).mean i ∧ (empUpdate s.toEmpState x).mean i ≤ hi
    rw [empUpdate_mean]
    have hn : (0:K) ≤ s.nSamples := Nat.cast_nonneg _
    have hp : (0:K) < s.nSamples + 1 := by linarith
    refine conv _ (by positivity) ?_
    rw [div_le_one hp]; linarith
  · exact conv _ h0 h1

theorem ewaFold_range {r : K} (h0 : 0 ≤ r) (h1 : r ≤ 1) (xs : List (ι → K)) (hne : xs ≠ []) (i : ι) (lo hi : K)
    (hx : ∀ x ∈ xs, lo ≤ x i ∧ x i ≤ hi) : lo ≤ (ewaFold r xs).mean i ∧ (ewaFold r xs).mean i ≤ hi := by
  induction xs using List.reverseRecOn with
  | nil => exact absurd rfl hne
  | append_singleton xs x ih =>
    rw [ewaFold_snoc]
    have hxx := hx x (by simp)
    by_cases hxs : xs = []
    · subst hxs
      have e : (ewaUpdate (ewaFold r ([] : List (ι → K))) x).mean = x := by
        have hb : 0 < ewaBurnN r := by
          unfold ewaBurnN
          have : (5:ℤ) ≤ min 250 (max 5 ⌈1 / r⌉) := le_min (by norm_num) (le_max_left _ _)
          omega
        have := ewaUpdate_burn (s := ewaFold r ([] : List (ι → K))) hb x
        rw [show (ewaUpdate (ewaFold r ([] : List (ι → K))) x).mean = (empUpdate (ewaFold r ([] : List (ι → K))).toEmpState x).mean from
          congrArg EmpState.mean this]
        ext j; simp [empUpdate, ewaFold, ewaInit, empInit]
      rw [e]; exact hxx
    · refine ewaUpdate_range (by rwa [ewaFold_r]) (by rwa [ewaFold_r]) x i lo hi hxx (ih hxs fun z hz => hx z (by simp [hz]))

/-- C22: each coordinate of `location_` of EwaCovariance (`r` in [0,1]) lies within the range of that coordinate over the
observations used. -/
theorem C22_ewa_range (p : RParam K) (h0 : 0 ≤ p.r) (h1 : p.r ≤ 1) (calls : List (Call ι K)) (m : ι → K)
    (h : ((new (ewaCls ι K) p).run calls).location = .ok m) (i : ι) (lo hi : K)
    (hx : ∀ x ∈ used p.diff calls, lo ≤ x i ∧ x i ≤ hi) : lo ≤ m i ∧ m i ≤ hi := by
  obtain ⟨hne, rfl⟩ := run_location_inv (ewa_lawful ι K) p calls m h
  exact ewaFold_range h0 h1 _ hne i lo hi hx

/-- C22: the same for EmpiricalCovariance. -/
theorem C22_empirical_range (d : Bool) (calls : List (Call ι K)) (m : ι → K)
    (h : ((new (empiricalCls ι K) d).run calls).location = .ok m) (i : ι) (lo hi : K)
    (hx : ∀ x ∈ used d calls, lo ≤ x i ∧ x i ≤ hi) : lo ≤ m i ∧ m i ≤ hi := by
  have hne : used d calls ≠ [] := (run_location_inv (empirical_lawful ι K) d calls m h).1
  rw [(C15_batch d calls hne).1] at h
  cases h
  generalize used d calls = xs at *
  have hn : (0:K) < xs.length := by exact_mod_cast List.length_pos_iff.2 hne
  have key : ∀ l : List (ι → K), (∀ x ∈ l, lo ≤ x i ∧ x i ≤ hi) →
      lo * l.length ≤ (l.map fun x => x i).sum ∧ (l.map fun x => x i).sum ≤ hi * l.length := by
    intro l
    induction l with
    | nil => intro _; simp
    | cons y l ih =>
      intro hl
      have h1 := ih fun x hx => hl x (List.mem_cons_of_mem _ hx)
      have h2 := hl y List.mem_cons_self
      simp only [List.map_cons, List.sum_cons, List.length_cons]
      push_cast
      constructor <;> nlinarith [h1.1, h1.2, h2.1, h2.2]
  obtain ⟨k1, k2⟩ := key xs hx
  exact ⟨by rw [meanOf, le_div_iff₀ hn]; exact k1, by rw [meanOf, div_le_iff₀ hn]; exact k2⟩

/-! ## C23 forgetting -/

/-- Two EWA states past burn-in with the same rate, fed the same rows. -/
theorem ewa_forget (r : K) (ys : List (ι → K)) (s t : EwaState ι K) (hs : s.nBurn ≤ s.nSamples) (ht : t.nBurn ≤ t.nSamples)
    (hrs : s.r = r) (hrt : t.r = r) :
    (ys.foldl ewaUpdate s).mean - (ys.foldl ewaUpdate t).mean = (1 - r) ^ ys.length • (s.mean - t.mean) := by
  induction ys generalizing s t with
  | nil => simp
  | cons y ys ih =>
    rw [List.foldl_cons, List.foldl_cons,
      ih (ewaUpdate s y) (ewaUpdate t y) (by simp; omega) (by simp; omega) (by simp [hrs]) (by simp [hrt]),
      show (ewaUpdate s y).mean = (ewaBlend s.r s.toEmpState y).mean from congrArg EmpState.mean (ewaUpdate_post hs y),
      show (ewaUpdate t y).mean = (ewaBlend t.r t.toEmpState y).mean from congrArg EmpState.mean (ewaUpdate_post ht y), hrs, hrt]
    ext i
    simp only [ewaBlend, Pi.sub_apply, Pi.smul_apply, smul_eq_mul, List.length_cons, pow_succ]
    ring

/-- Entrywise bound on the difference of the covariances. -/
theorem ewa_forget_cov (r : K) (hr0 : 0 ≤ r) (hr1 : r ≤ 1) (B D : K) (hB : 0 ≤ B) (hD : 0 ≤ D) (ys : List (ι → K))
    (s t : EwaState ι K) (hs : s.nBurn ≤ s.nSamples) (ht : t.nBurn ≤ t.nSamples) (hrs : s.r = r) (hrt : t.r = r)
    (hdiff : ∀ i, |s.mean i - t.mean i| ≤ D)
    (hin : ∀ k < ys.length, ∀ i, |(ys.getD k 0) i - (((ys.take k).foldl ewaUpdate t).mean i)| ≤ B) (i j : ι) :
    |(ys.foldl ewaUpdate s).cov i j - (ys.foldl ewaUpdate t).cov i j|
      ≤ (1 - r) ^ ys.length * |s.cov i j - t.cov i j| + ys.length * r * (1 - r) ^ (ys.length - 1) * (2 * D * B + D * D) := by
  induction ys using List.reverseRecOn with
  | nil => simp
  | append_singleton ys y ih =>
    have ih' := ih (by
      intro k hk l
      have := hin k (by simp; omega) l
      rw [List.take_append_of_le_length hk.le] at this
      rw [List.getD_append _ _ _ _ hk] at this
      exact this)
    have hlast := hin ys.length (by simp)
    simp only [List.take_left', List.getD_append_right _ _ _ _ (le_refl _), Nat.sub_self, List.getD_cons_zero] at hlast
    rw [List.foldl_append, List.foldl_append]
    simp only [List.foldl_cons, List.foldl_nil]
    set s' := ys.foldl ewaUpdate s with hs'
    set t' := ys.foldl ewaUpdate t with ht'
    have hmean := ewa_forget r ys s t hs ht hrs hrt
    have nb : ∀ (zs : List (ι → K)) (u : EwaState ι K), u.nBurn ≤ u.nSamples →
        (zs.foldl ewaUpdate u).nBurn ≤ (zs.foldl ewaUpdate u).nSamples ∧ (zs.foldl ewaUpdate u).r = u.r := by
      intro zs
      induction zs with
      | nil => intro u hu; exact ⟨hu, rfl⟩
      | cons z zs ihz =>
        intro u hu
        have := ihz (ewaUpdate u z) (by simp; omega)
        rw [List.foldl_cons]
        exact ⟨this.1, by rw [this.2]; simp⟩
    have e1 : (ewaUpdate s' y).cov = (1 - r) • s'.cov + r • outer (y - s'.mean) (y - s'.mean) := by
      rw [show (ewaUpdate s' y).cov = (ewaBlend s'.r s'.toEmpState y).cov from congrArg EmpState.cov (ewaUpdate_post (nb ys s hs).1 y),
        (nb ys s hs).2, hrs]
      rfl
    have e2 : (ewaUpdate t' y).cov = (1 - r) • t'.cov + r • outer (y - t'.mean) (y - t'.mean) := by
      rw [show (ewaUpdate t' y).cov = (ewaBlend t'.r t'.toEmpState y).cov from congrArg EmpState.cov (ewaUpdate_post (nb ys t ht).1 y),
        (nb ys t ht).2, hrt]
      rfl
    rw [e1, e2]
    simp only [Matrix.add_apply, Matrix.smul_apply, smul_eq_mul, outer, of_apply, Pi.sub_apply]
    set q := 1 - r with hq
    have hq0 : 0 ≤ q := by rw [hq]; linarith
    have hq1 : q ≤ 1 := by rw [hq]; linarith
    set n := ys.length with hn
    have hsm : ∀ l, s'.mean l = t'.mean l + q ^ n * (s.mean l - t.mean l) := by
      intro l
      have := congrFun hmean l
      simp only [Pi.sub_apply, Pi.smul_apply, smul_eq_mul] at this
      linear_combination this
    set di := s.mean i - t.mean i with hdi
    set dj := s.mean j - t.mean j with hdj
    set ei := y i - t'.mean i with hei
    set ej := y j - t'.mean j with hej
    have hdiB : |di| ≤ D := hdiff i
    have hdjB : |dj| ≤ D := hdiff j
    have heiB : |ei| ≤ B := hlast i
    have hejB : |ej| ≤ B := hlast j
    have hqn0 : 0 ≤ q ^ n := pow_nonneg hq0 n
    have hqn1 : q ^ n ≤ 1 := pow_le_one₀ hq0 hq1
    have expand : q * s'.cov i j + r * ((y i - s'.mean i) * (y j - s'.mean j))
        - (q * t'.cov i j + r * ((y i - t'.mean i) * (y j - t'.mean j)))
        = q * (s'.cov i j - t'.cov i j) + r * (q ^ n * (-(di * ej) - ei * dj + q ^ n * (di * dj))) := by
      rw [hsm i, hsm j]; ring
    rw [expand]
    have hprod : |-(di * ej) - ei * dj + q ^ n * (di * dj)| ≤ 2 * D * B + D * D := by
      have a1 : |di * ej| ≤ D * B := by rw [abs_mul]; exact mul_le_mul hdiB hejB (abs_nonneg _) hD
      have a2 : |ei * dj| ≤ B * D := by rw [abs_mul]; exact mul_le_mul heiB hdjB (abs_nonneg _) hB
      have a3 : |q ^ n * (di * dj)| ≤ D * D := by
        rw [abs_mul, abs_of_nonneg hqn0, abs_mul]
        calc q ^ n * (|di| * |dj|) ≤ 1 * (D * D) := by
              refine mul_le_mul hqn1 (mul_le_mul hdiB hdjB (abs_nonneg _) hD) (mul_nonneg (abs_nonneg _) (abs_nonneg _)) zero_le_one
          _ = D * D := one_mul _
      rw [abs_le] at a1 a2 a3 ⊢
      constructor <;> linarith [a1.1, a1.2, a2.1, a2.2, a3.1, a3.2]
    have tri : |q * (s'.cov i j - t'.cov i j) + r * (q ^ n * (-(di * ej) - ei * dj + q ^ n * (di * dj)))|
        ≤ q * |s'.cov i j - t'.cov i j| + r * (q ^ n * (2 * D * B + D * D)) := by
      refine (abs_add_le _ _).trans (add_le_add ?_ ?_)
      · rw [abs_mul, abs_of_nonneg hq0]
      · rw [abs_mul, abs_of_nonneg hr0, abs_mul, abs_of_nonneg hqn0]
        exact mul_le_mul_of_nonneg_left (mul_le_mul_of_nonneg_left hprod hqn0) hr0
    refine tri.trans ?_
    have h2 := mul_le_mul_of_nonneg_left ih' hq0
    have hlen : (ys ++ [y]).length = n + 1 := by simp [hn]
    rw [hlen]
    have e3 : (n + 1 - 1) = n := by omega
    rw [e3]
    push_cast
    have hP : 0 ≤ 2 * D * B + D * D := by positivity
    have e4 : q * (n * r * q ^ (n - 1) * (2 * D * B + D * D)) = n * r * q ^ n * (2 * D * B + D * D) := by
      rcases Nat.eq_zero_or_pos n with h | h
      · rw [h]; simp
      · have : q ^ n = q * q ^ (n - 1) := by
          conv_lhs => rw [show n = (n - 1) + 1 by omega]
          rw [pow_succ']
        rw [this]; ring
    rw [mul_add, e4] at h2
    rw [pow_succ']
    nlinarith [h2]

/-- C23: two EwaCovariance estimators with the same rate, whatever their histories (each past burn-in), fed the same `k`
further rows: the difference of the locations is exactly `(1-r)^k` times the difference before. (diff=False.) -/
theorem C23_location (r : K) (h₁ h₂ ys : List (ι → K)) (b₁ : ewaBurnN r ≤ h₁.length) (b₂ : ewaBurnN r ≤ h₂.length) (hr : 0 < r) :
    let est := fun xs => (new (ewaCls ι K) ⟨r, false⟩).run [.partialFit (.batch xs)]
    ∃ m₁ m₂ m₁' m₂', (est h₁).location = .ok m₁ ∧ (est h₂).location = .ok m₂ ∧
      (est (h₁ ++ ys)).location = .ok m₁' ∧ (est (h₂ ++ ys)).location = .ok m₂' ∧
      m₁' - m₂' = (1 - r) ^ ys.length • (m₁ - m₂) := by
  intro est
  have h5 := (C19_burn_length r hr).2.2.1
  have hu : ∀ xs : List (ι → K), used (false) [Call.partialFit (.batch xs)] = xs := by
    intro xs; simp [used, effective, rowsSinceFit, rowsOf]
  have hn : ∀ xs : List (ι → K), ewaBurnN r ≤ xs.length → (est xs).location = .ok (ewaFold r xs).mean := by
    intro xs hx
    have := (ewa_attrs ⟨r, false⟩ [Call.partialFit (.batch xs)] (by
      show used false _ ≠ []
      rw [hu]; intro h; rw [h] at hx; simp at hx; omega)).1
    rw [hu] at this; exact this
  refine ⟨_, _, _, _, hn h₁ b₁, hn h₂ b₂, hn _ (by simp; omega), hn _ (by simp; omega), ?_⟩
  have := ewa_forget r ys (ewaFold r h₁) (ewaFold r h₂) (by rw [ewaFold_n, ewaFold_nBurn]; exact b₁)
    (by rw [ewaFold_n, ewaFold_nBurn]; exact b₂) (ewaFold_r r h₁) (ewaFold_r r h₂)
  rw [← this]
  simp [ewaFold, List.foldl_append]

/-- C23: if all data (both histories and the further rows) lie in a box of side `B`, the covariances after `k` further rows
differ entrywise by at most `(1-r)^k |difference before| + 3 k r (1-r)^(k-1) B²`. -/
theorem C23_covariance (r : K) (h₁ h₂ ys : List (ι → K)) (b₁ : ewaBurnN r ≤ h₁.length) (b₂ : ewaBurnN r ≤ h₂.length) (hr : 0 < r)
    (hr1 : r ≤ 1) (lo : ι → K) (B : K) (hbox : ∀ x ∈ h₁ ++ h₂ ++ ys, ∀ i, lo i ≤ x i ∧ x i ≤ lo i + B) :
    let est := fun xs => (new (ewaCls ι K) ⟨r, false⟩).run [.partialFit (.batch xs)]
    ∃ c₁ c₂ c₁' c₂', (est h₁).covariance = .ok c₁ ∧ (est h₂).covariance = .ok c₂ ∧
      (est (h₁ ++ ys)).covariance = .ok c₁' ∧ (est (h₂ ++ ys)).covariance = .ok c₂' ∧
      ∀ i j, |c₁' i j - c₂' i j| ≤ (1 - r) ^ ys.length * |c₁ i j - c₂ i j|
        + 3 * ys.length * r * (1 - r) ^ (ys.length - 1) * B ^ 2 := by
  intro est
  have h5 := (C19_burn_length r hr).2.2.1
  have hu : ∀ xs : List (ι → K), used (false) [Call.partialFit (.batch xs)] = xs := by
    intro xs; simp [used, effective, rowsSinceFit, rowsOf]
  have hnn : ∀ xs : List (ι → K), ewaBurnN r ≤ xs.length → xs ≠ [] := by
    intro xs hx h; rw [h] at hx; simp at hx; omega
  have hn : ∀ xs : List (ι → K), ewaBurnN r ≤ xs.length → (est xs).covariance = .ok (ewaFold r xs).cov := by
    intro xs hx
    have := (ewa_attrs ⟨r, false⟩ [Call.partialFit (.batch xs)] (by
      show used false _ ≠ []
      rw [hu]; exact hnn xs hx)).2
    rw [hu] at this; exact this
  refine ⟨_, _, _, _, hn h₁ b₁, hn h₂ b₂, hn _ (by simp; omega), hn _ (by simp; omega), ?_⟩
  intro i j
  have hB : 0 ≤ B := by
    obtain ⟨x, hx⟩ := List.exists_mem_of_ne_nil _ (hnn h₁ b₁)
    have := hbox x (by simp [hx]) i
    linarith [this.1, this.2]
  have box1 : ∀ l, lo l ≤ (ewaFold r h₁).mean l ∧ (ewaFold r h₁).mean l ≤ lo l + B := fun l =>
    ewaFold_range hr.le hr1 h₁ (hnn h₁ b₁) l _ _ fun x hx => hbox x (by simp [hx]) l
  have box2 : ∀ zs : List (ι → K), (∀ z ∈ zs, z ∈ ys) → ∀ l, lo l ≤ (ewaFold r (h₂ ++ zs)).mean l ∧ (ewaFold r (h₂ ++ zs)).mean l ≤ lo l + B :=
    fun zs hz l => ewaFold_range hr.le hr1 (h₂ ++ zs) (by simp [hnn h₂ b₂]) l _ _ fun x hx => by
      rcases List.mem_append.1 hx with hx | hx
      · exact hbox x (by simp [hx]) l
      · exact hbox x (by simp [hz x hx]) l
  have key := ewa_forget_cov r hr.le hr1 B B hB hB ys (ewaFold r h₁) (ewaFold r h₂) (by rw [ewaFold_n, ewaFold_nBurn]; exact b₁)
    (by rw [ewaFold_n, ewaFold_nBurn]; exact b₂) (ewaFold_r r h₁) (ewaFold_r r h₂)
    (fun l => by
      have h1 := box1 l
      have h2 := box2 [] (by simp) l
      rw [List.append_nil] at h2
      rw [abs_le]; constructor <;> linarith [h1.1, h1.2, h2.1, h2.2])
    (fun k hk l => by
      have hy : ys.getD k 0 ∈ ys := by rw [List.getD_eq_getElem _ _ hk]; exact List.getElem_mem hk
      have h1 := hbox (ys.getD k 0) (by simp only [List.mem_append]; tauto) l
      have h2 := box2 (ys.take k) (fun z hz => List.mem_of_mem_take hz) l
      have e : (ewaFold r (h₂ ++ ys.take k)) = (ys.take k).foldl ewaUpdate (ewaFold r h₂) := by simp [ewaFold, List.foldl_append]
      rw [e] at h2
      rw [abs_le]; constructor <;> linarith [h1.1, h1.2, h2.1, h2.2]) i j
  have e : ∀ h : List (ι → K), ys.foldl ewaUpdate (ewaFold r h) = ewaFold r (h ++ ys) := by
    intro h; simp [ewaFold, List.foldl_append]
  rw [e, e] at key
  refine key.trans (le_of_eq ?_)
  ring

/-! ## Concrete cases (over ℚ) -/

section Examples

-- C19–C23: the default-like rate 1/10 has a burn-in of 10 rows
private theorem burn_tenth : ewaBurnN (1/10 : ℚ) = 10 := by
  have : (⌈(1 : ℚ) / (1/10)⌉ : ℤ) = 10 := by norm_num
  simp [ewaBurnN, this]

example : (List.replicate 10 (![1, 2] : Fin 2 → ℚ)).length = ewaBurnN (1/10 : ℚ) := by rw [burn_tenth]; rfl
example : (0:ℚ) < 1/10 ∧ (1/10 : ℚ) ≤ 1 := by norm_num

-- C17: a non-square A (the portfolio x₀ + 2 x₁)
example := C17_ewa_affine (K := ℚ) ⟨1/10, false⟩ (Matrix.of ![![1, 2]] : Matrix (Fin 1) (Fin 2) ℚ) ![5]
  [.partialFit (.batch [![1, 2], ![3, 4]])] (by simp [used, effective, rowsSinceFit, rowsOf])

-- C23: histories of 10 rows each, everything in the box [0, 3]
example := C23_covariance (K := ℚ) (1/10) (List.replicate 10 (fun _ : Fin 2 => 1)) (List.replicate 10 (fun _ : Fin 2 => 2))
  [fun _ => 3] (by rw [burn_tenth]; simp) (by rw [burn_tenth]; simp) (by norm_num) (by norm_num) (fun _ => 0) 3
  (by intro x hx i; simp [List.mem_replicate] at hx; rcases hx with h | h | h <;> subst h <;> norm_num)

end Examples

end Precise
