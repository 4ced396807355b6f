import Verif.Props.Emp
import Verif.Props.Ewa

/-!
# C132: rows delivered out of order, twice, or not at all
-/

set_option linter.all false

open Matrix

namespace Precise

open Spec Obj

variable {ι K : Type} [Fintype ι] [Field K] [LinearOrder K] [IsStrictOrderedRing K] [FloorRing K]

theorem ewaFold_step {r : K} {xs : List (ι → K)} (h : ewaBurnN r ≤ xs.length) (x : ι → K) :
    (∀ i, (ewaFold r (xs ++ [x])).mean i = (1 - r) * (ewaFold r xs).mean i + r * x i) ∧
    ∀ i j, (ewaFold r (xs ++ [x])).cov i j = (1 - r) * (ewaFold r xs).cov i j + r * ((x i - (ewaFold r xs).mean i) * (x j - (ewaFold r xs).mean j)) := by
  have e : (ewaFold r (xs ++ [x])).toEmpState = ewaBlend r (ewaFold r xs).toEmpState x := by
    rw [ewaFold_snoc, ewaUpdate_post (by rw [ewaFold_n, ewaFold_nBurn]; exact h), ewaFold_r]
  exact ⟨fun i => by rw [e]; rfl, fun i j => by
    rw [e]; simp only [ewaBlend, Matrix.add_apply, Matrix.smul_apply, outer, Matrix.of_apply, smul_eq_mul]⟩

/-- two pasts, the same rows afterwards -/
theorem ewaFold_common {r : K} {xs xs' : List (ι → K)} (h : ewaBurnN r ≤ xs.length) (h' : ewaBurnN r ≤ xs'.length) (ys : List (ι → K)) (i : ι) :
    (ewaFold r (xs ++ ys)).mean i - (ewaFold r (xs' ++ ys)).mean i = (1 - r) ^ ys.length * ((ewaFold r xs).mean i - (ewaFold r xs').mean i) := by
  induction ys using List.reverseRecOn with
  | nil => simp
  | append_singleton ys y ih =>
    rw [← List.append_assoc, ← List.append_assoc, (ewaFold_step (by rw [List.length_append]; omega) y).1, (ewaFold_step (by rw [List.length_append]; omega) y).1,
      List.length_append, List.length_singleton, pow_succ]
    linear_combination (1 - r) * ih

section
variable (p : RParam K) {xs : List (ι → K)} (h : ewaBurnN p.r ≤ xs.length)
include h

/-- C132: two observations that arrive in the wrong order (after the burn-in): `ys` later observations on, `location_` of EwaCovariance is off by exactly
`(1-r)^|ys| r² (x - y)`. -/
theorem C132_reorder (x y : ι → K) (ys : List (ι → K)) (calls calls' : List (Call ι K)) (hu : used p.diff calls = xs ++ [y, x] ++ ys)
    (hu' : used p.diff calls' = xs ++ [x, y] ++ ys) : ∃ m m', ((new (ewaCls ι K) p).run calls).location = .ok m ∧
      ((new (ewaCls ι K) p).run calls').location = .ok m' ∧ ∀ i, m i - m' i = (1 - p.r) ^ ys.length * (p.r ^ 2 * (x i - y i)) := by
  refine ⟨_, _, (ewa_attrs p calls (by rw [hu]; simp)).1, (ewa_attrs p calls' (by rw [hu']; simp)).1, fun i => ?_⟩
  rw [hu, hu', ewaFold_common (by rw [List.length_append]; omega) (by rw [List.length_append]; omega)]
  have e : ∀ u v : ι → K, (ewaFold p.r (xs ++ [u, v])).mean i = (1 - p.r) * ((1 - p.r) * (ewaFold p.r xs).mean i + p.r * u i) + p.r * v i := fun u v => by
    rw [show xs ++ [u, v] = xs ++ [u] ++ [v] by simp, (ewaFold_step (by rw [List.length_append]; omega) v).1, (ewaFold_step h u).1]
  rw [e, e]; ring

/-- C132: and `covariance_`, once both have arrived, by exactly `r² (1-r)` times the difference of the squared deviations (from the location before). -/
theorem C132_reorder_covariance (x y : ι → K) (before calls calls' : List (Call ι K)) (hb : used p.diff before = xs) (hne : xs ≠ [])
    (hu : used p.diff calls = xs ++ [y, x]) (hu' : used p.diff calls' = xs ++ [x, y]) : ∃ m c c',
      ((new (ewaCls ι K) p).run before).location = .ok m ∧ ((new (ewaCls ι K) p).run calls).covariance = .ok c ∧
      ((new (ewaCls ι K) p).run calls').covariance = .ok c' ∧
      ∀ i j, c i j - c' i j = p.r ^ 2 * (1 - p.r) * ((x i - m i) * (x j - m j) - (y i - m i) * (y j - m j)) := by
  refine ⟨_, _, _, (ewa_attrs p before (by rw [hb]; exact hne)).1, (ewa_attrs p calls (by rw [hu]; simp)).2, (ewa_attrs p calls' (by rw [hu']; simp)).2, fun i j => ?_⟩
  rw [hu, hu', hb]
  have e : ∀ u v : ι → K, (ewaFold p.r (xs ++ [u, v])).cov i j = (1 - p.r) * ((1 - p.r) * (ewaFold p.r xs).cov i j
      + p.r * ((u i - (ewaFold p.r xs).mean i) * (u j - (ewaFold p.r xs).mean j)))
      + p.r * ((v i - ((1 - p.r) * (ewaFold p.r xs).mean i + p.r * u i)) * (v j - ((1 - p.r) * (ewaFold p.r xs).mean j + p.r * u j))) := fun u v => by
    rw [show xs ++ [u, v] = xs ++ [u] ++ [v] by simp, (ewaFold_step (by rw [List.length_append]; omega) v).2, (ewaFold_step h u).2, (ewaFold_step h u).1, (ewaFold_step h u).1]
  rw [e, e]; ring

/-- C132: an observation that is delivered twice. -/
theorem C132_duplicate (x : ι → K) (ys : List (ι → K)) (before calls calls' : List (Call ι K)) (hb : used p.diff before = xs) (hne : xs ≠ [])
    (hu : used p.diff calls = xs ++ [x, x] ++ ys) (hu' : used p.diff calls' = xs ++ [x] ++ ys) : ∃ m0 m m',
      ((new (ewaCls ι K) p).run before).location = .ok m0 ∧ ((new (ewaCls ι K) p).run calls).location = .ok m ∧
      ((new (ewaCls ι K) p).run calls').location = .ok m' ∧ ∀ i, m i - m' i = (1 - p.r) ^ (ys.length + 1) * (p.r * (x i - m0 i)) := by
  refine ⟨_, _, _, (ewa_attrs p before (by rw [hb]; exact hne)).1, (ewa_attrs p calls (by rw [hu]; simp)).1, (ewa_attrs p calls' (by rw [hu']; simp)).1, fun i => ?_⟩
  rw [hu, hu', hb, ewaFold_common (by rw [List.length_append]; omega) (by rw [List.length_append]; omega)]
  rw [show xs ++ [x, x] = xs ++ [x] ++ [x] by simp, (ewaFold_step (by rw [List.length_append]; omega) x).1, (ewaFold_step h x).1, pow_succ]
  ring

/-- C132: an observation that is lost. -/
theorem C132_drop (x : ι → K) (ys : List (ι → K)) (before calls calls' : List (Call ι K)) (hb : used p.diff before = xs) (hne : xs ≠ [])
    (hu : used p.diff calls = xs ++ ys) (hu' : used p.diff calls' = xs ++ [x] ++ ys) : ∃ m0 m m',
      ((new (ewaCls ι K) p).run before).location = .ok m0 ∧ ((new (ewaCls ι K) p).run calls).location = .ok m ∧
      ((new (ewaCls ι K) p).run calls').location = .ok m' ∧ ∀ i, m i - m' i = (1 - p.r) ^ ys.length * (p.r * (m0 i - x i)) := by
  refine ⟨_, _, _, (ewa_attrs p before (by rw [hb]; exact hne)).1, (ewa_attrs p calls (by rw [hu]; simp [hne])).1, (ewa_attrs p calls' (by rw [hu']; simp)).1, fun i => ?_⟩
  rw [hu, hu', hb, ewaFold_common h (by rw [List.length_append]; omega), (ewaFold_step h x).1]
  ring

end

/-- C132: the covariance after a duplicate, a lost row or two rows in the wrong order: any two pasts that cover the burn-in and the same `ys` afterwards, all within
`B`: what is left is `(1-r)^n` times the difference there was, plus a term from the difference of the locations that also fades. -/
theorem C132_covariance_fades (p : RParam K) (h0 : 0 ≤ p.r) (h1 : p.r ≤ 1) {xs xs' ys : List (ι → K)} (hx : ewaBurnN p.r ≤ xs.length) (hx' : ewaBurnN p.r ≤ xs'.length)
    (hne : xs ≠ []) (hne' : xs' ≠ []) (lo hi : K) (i j : ι)
    (hB : ∀ z ∈ xs ++ ys, (lo ≤ z i ∧ z i ≤ hi) ∧ lo ≤ z j ∧ z j ≤ hi) (hB' : ∀ z ∈ xs' ++ ys, (lo ≤ z i ∧ z i ≤ hi) ∧ lo ≤ z j ∧ z j ≤ hi) (D : K)
    (before before' calls calls' : List (Call ι K)) (hb : used p.diff before = xs) (hb' : used p.diff before' = xs') (m0 m0' : ι → K)
    (hm : ((new (ewaCls ι K) p).run before).location = .ok m0) (hm' : ((new (ewaCls ι K) p).run before').location = .ok m0')
    (hD : |m0 i - m0' i| ≤ D ∧ |m0 j - m0' j| ≤ D)
    (hu : used p.diff calls = xs ++ ys) (hu' : used p.diff calls' = xs' ++ ys) : ∃ c0 c0' c c',
      ((new (ewaCls ι K) p).run before).covariance = .ok c0 ∧ ((new (ewaCls ι K) p).run before').covariance = .ok c0' ∧
      ((new (ewaCls ι K) p).run calls).covariance = .ok c ∧ ((new (ewaCls ι K) p).run calls').covariance = .ok c' ∧
      (1 - p.r) * |c i j - c' i j| ≤ (1 - p.r) ^ ys.length * ((1 - p.r) * |c0 i j - c0' i j| + ys.length * (p.r * (2 * (hi - lo) * D))) := by
  have em : m0 = (ewaFold p.r xs).mean := by
    have := hm.symm.trans (ewa_attrs p before (by rw [hb]; exact hne)).1
    rw [hb] at this; exact Except.ok.inj this
  have em' : m0' = (ewaFold p.r xs').mean := by
    have := hm'.symm.trans (ewa_attrs p before' (by rw [hb']; exact hne')).1
    rw [hb'] at this; exact Except.ok.inj this
  rw [em, em'] at hD
  have ej : ∀ (ys : List (ι → K)) (i : ι), |(ewaFold p.r xs).mean i - (ewaFold p.r xs').mean i| ≤ D →
      |(ewaFold p.r (xs ++ ys)).mean i - (ewaFold p.r (xs' ++ ys)).mean i| ≤ (1 - p.r) ^ ys.length * D := by
    intro ys i h
    have q : 0 ≤ (1 - p.r) ^ ys.length := pow_nonneg (by linarith) _
    rw [ewaFold_common hx hx', abs_mul, abs_of_nonneg q]
    exact mul_le_mul_of_nonneg_left h q
  have key : ∀ ys : List (ι → K), (∀ z ∈ xs ++ ys, (lo ≤ z i ∧ z i ≤ hi) ∧ lo ≤ z j ∧ z j ≤ hi) → (∀ z ∈ xs' ++ ys, (lo ≤ z i ∧ z i ≤ hi) ∧ lo ≤ z j ∧ z j ≤ hi) →
      (1 - p.r) * |(ewaFold p.r (xs ++ ys)).cov i j - (ewaFold p.r (xs' ++ ys)).cov i j| ≤
        (1 - p.r) ^ ys.length * ((1 - p.r) * |(ewaFold p.r xs).cov i j - (ewaFold p.r xs').cov i j| + ys.length * (p.r * (2 * (hi - lo) * D))) := by
    intro ys
    induction ys using List.reverseRecOn with
    | nil => intro _ _; simp
    | append_singleton ys z ih =>
      intro g g'
      have g1 : ∀ w ∈ xs ++ ys, (lo ≤ w i ∧ w i ≤ hi) ∧ lo ≤ w j ∧ w j ≤ hi := fun w hw => g w (by rw [← List.append_assoc]; simp only [List.mem_append] at hw ⊢; tauto)
      have g1' : ∀ w ∈ xs' ++ ys, (lo ≤ w i ∧ w i ≤ hi) ∧ lo ≤ w j ∧ w j ≤ hi := fun w hw => g' w (by rw [← List.append_assoc]; simp only [List.mem_append] at hw ⊢; tauto)
      have hz := g z (by simp)
      have ih := ih g1 g1'
      have l1 := ewaFold_range h0 h1 (xs ++ ys) (by simp [hne]) i lo hi fun w hw => (g1 w hw).1
      have l2 := ewaFold_range h0 h1 (xs ++ ys) (by simp [hne]) j lo hi fun w hw => (g1 w hw).2
      have l1' := ewaFold_range h0 h1 (xs' ++ ys) (by simp [hne']) i lo hi fun w hw => (g1' w hw).1
      have l2' := ewaFold_range h0 h1 (xs' ++ ys) (by simp [hne']) j lo hi fun w hw => (g1' w hw).2
      have di := ej ys i hD.1
      have dj := ej ys j hD.2
      rw [← List.append_assoc, ← List.append_assoc, (ewaFold_step (by rw [List.length_append]; omega) z).2, (ewaFold_step (by rw [List.length_append]; omega) z).2,
        List.length_append, List.length_singleton, pow_succ]
      generalize (ewaFold p.r (xs ++ ys)).cov i j = c at *
      generalize (ewaFold p.r (xs' ++ ys)).cov i j = c' at *
      generalize (ewaFold p.r (xs ++ ys)).mean i = mi at *
      generalize (ewaFold p.r (xs ++ ys)).mean j = mj at *
      generalize (ewaFold p.r (xs' ++ ys)).mean i = mi' at *
      generalize (ewaFold p.r (xs' ++ ys)).mean j = mj' at *
      generalize |(ewaFold p.r xs).cov i j - (ewaFold p.r xs').cov i j| = E0 at *
      have q1 : 0 ≤ 1 - p.r := by linarith
      have qn : 0 ≤ (1 - p.r) ^ ys.length := pow_nonneg q1 _
      set Q := (1 - p.r) ^ ys.length
      have ew : 0 ≤ hi - lo := by linarith [hz.1.1, hz.1.2]
      have cross : |(z i - mi) * (z j - mj) - (z i - mi') * (z j - mj')| ≤ 2 * (hi - lo) * (Q * D) := by
        have e : (z i - mi) * (z j - mj) - (z i - mi') * (z j - mj') = -((z i - mi) * (mj - mj')) - (z j - mj') * (mi - mi') := by ring
        rw [e]
        have a1 : |z i - mi| ≤ hi - lo := abs_le.2 ⟨by linarith [hz.1.1, l1.2], by linarith [hz.1.2, l1.1]⟩
        have a2 : |z j - mj'| ≤ hi - lo := abs_le.2 ⟨by linarith [hz.2.1, l2'.2], by linarith [hz.2.2, l2'.1]⟩
        calc |-((z i - mi) * (mj - mj')) - (z j - mj') * (mi - mi')| ≤ |-((z i - mi) * (mj - mj'))| + |(z j - mj') * (mi - mi')| := abs_sub _ _
          _ = |z i - mi| * |mj - mj'| + |z j - mj'| * |mi - mi'| := by rw [abs_neg, abs_mul, abs_mul]
          _ ≤ (hi - lo) * (Q * D) + (hi - lo) * (Q * D) := add_le_add (mul_le_mul a1 dj (abs_nonneg _) ew) (mul_le_mul a2 di (abs_nonneg _) ew)
          _ = _ := by ring
      have st : |(1 - p.r) * c + p.r * ((z i - mi) * (z j - mj)) - ((1 - p.r) * c' + p.r * ((z i - mi') * (z j - mj')))|
          ≤ (1 - p.r) * |c - c'| + p.r * (2 * (hi - lo) * (Q * D)) := by
        rw [show (1 - p.r) * c + p.r * ((z i - mi) * (z j - mj)) - ((1 - p.r) * c' + p.r * ((z i - mi') * (z j - mj')))
          = (1 - p.r) * (c - c') + p.r * ((z i - mi) * (z j - mj) - (z i - mi') * (z j - mj')) by ring]
        refine (abs_add_le _ _).trans ?_
        rw [abs_mul, abs_mul, abs_of_nonneg q1, abs_of_nonneg h0]
        exact add_le_add le_rfl (mul_le_mul_of_nonneg_left cross h0)
      have fin := mul_le_mul_of_nonneg_left st q1
      have fin2 := mul_le_mul_of_nonneg_left ih q1
      push_cast
      linarith
  refine ⟨_, _, _, _, (ewa_attrs p before (by rw [hb]; exact hne)).2, (ewa_attrs p before' (by rw [hb']; exact hne')).2,
    (ewa_attrs p calls (by rw [hu]; simp [hne])).2, (ewa_attrs p calls' (by rw [hu']; simp [hne'])).2, ?_⟩
  rw [hb, hb', hu, hu']
  exact key ys hB hB'

/-- C132: EmpiricalCovariance does not mind the order (C16); one more delivery of a row moves it by exactly this much. -/
theorem C132_empirical_duplicate (d : Bool) (xs : List (ι → K)) (hne : xs ≠ []) (x : ι → K) (before calls : List (Call ι K)) (hb : used d before = xs)
    (hu : used d calls = xs ++ [x]) : ∃ m c m' c',
      ((new (empiricalCls ι K) d).run before).location = .ok m ∧ ((new (empiricalCls ι K) d).run before).covariance = .ok c ∧
      ((new (empiricalCls ι K) d).run calls).location = .ok m' ∧ ((new (empiricalCls ι K) d).run calls).covariance = .ok c' ∧
      (∀ i, m' i - m i = (x i - m i) / (xs.length + 1)) ∧
      ∀ i j, c' i j = xs.length / (xs.length + 1) * c i j + xs.length / (xs.length + 1) ^ 2 * ((x i - m i) * (x j - m j)) := by
  have h' : xs ++ [x] ≠ [] := by simp
  have hB := C15_batch (ι := ι) (K := K) d before (by rw [hb]; exact hne)
  have hC := C15_batch (ι := ι) (K := K) d calls (by rw [hu]; exact h')
  refine ⟨_, _, _, _, hB.1, hB.2.1, hC.1, hC.2.1, fun i => ?_, fun i j => ?_⟩
  · rw [hb, hu, ← empFold_mean h', empFold_snoc, empUpdate_mean, empFold_n, empFold_mean hne]
    ring
  · rw [hb, hu, ← empFold_cov h', empFold_snoc, empUpdate_cov, empFold_n, empFold_mean hne, empFold_cov hne]
    simp [outer]

/-- Non-vacuity: 250 rows, then two in the wrong order and three more. -/
example : ∃ (calls calls' : List (Call (Fin 2) ℚ)), ewaBurnN (1 / 4 : ℚ) ≤ (List.replicate 250 (![1, 2] : Fin 2 → ℚ)).length ∧
    used false calls = List.replicate 250 ![1, 2] ++ [![0, 5], ![3, 4]] ++ [![1, 1], ![2, 2], ![0, 0]] ∧
    used false calls' = List.replicate 250 ![1, 2] ++ [![3, 4], ![0, 5]] ++ [![1, 1], ![2, 2], ![0, 0]] := by
  have g : ∀ xs : List (Fin 2 → ℚ), used false [.partialFit (.batch xs)] = xs := fun xs => by simp [used, effective, rowsSinceFit, rowsOf]
  refine ⟨[.partialFit (.batch (List.replicate 250 ![1, 2] ++ [![0, 5], ![3, 4]] ++ [![1, 1], ![2, 2], ![0, 0]]))],
    [.partialFit (.batch (List.replicate 250 ![1, 2] ++ [![3, 4], ![0, 5]] ++ [![1, 1], ![2, 2], ![0, 0]]))], ?_, ?_, ?_⟩
  · rw [List.length_replicate]; unfold ewaBurnN; omega
  · exact g _
  · exact g _

end Precise
