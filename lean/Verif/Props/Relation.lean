import Verif.Props.Location
import Verif.Props.Shrinkage
import Verif.Props.Robust
import Verif.Props.Dynamic
import Verif.Props.Blocks
import Verif.Spec.Relation

/-!
# C123: exact linear relations between the variables

Which estimates respect a relation `w · x = c` that every observation satisfies.
-/

set_option linter.all false

namespace Precise

open Spec Obj Matrix

section field
variable {ι K : Type} [Fintype ι] [Field K] [CharZero K]

theorem Obeys.snoc {w : ι → K} {c : K} {xs : List (ι → K)} {x : ι → K} (h : Obeys w c (xs ++ [x])) : Obeys w c xs ∧ w ⬝ᵥ x = c :=
  ⟨fun y hy => h y (List.mem_append_left _ hy), h x (by simp)⟩

/-- The running mean and the relation. -/
theorem rel_meanStep {w : ι → K} {c : K} {m x : ι → K} (n : ℕ) (hm : n = 0 ∨ w ⬝ᵥ m = c) (hx : w ⬝ᵥ x = c) :
    w ⬝ᵥ (fun i => m i + (x i - m i) / ((n + 1 : ℕ) : K)) = c := by
  have hn : ((n + 1 : ℕ) : K) ≠ 0 := Nat.cast_ne_zero.2 (Nat.succ_ne_zero _)
  have e : (fun i => m i + (x i - m i) / ((n + 1 : ℕ) : K)) = m + (((n + 1 : ℕ) : K)⁻¹) • (x - m) := by
    funext i; simp only [Pi.add_apply, Pi.smul_apply, Pi.sub_apply, smul_eq_mul]; field_simp
  rw [e, dotProduct_add, dotProduct_smul, dotProduct_sub, hx]
  rcases hm with rfl | hm
  · simp
  · rw [hm]; simp

theorem rel_blend {w : ι → K} {c : K} {m x : ι → K} (r : K) (hm : w ⬝ᵥ m = c) (hx : w ⬝ᵥ x = c) :
    w ⬝ᵥ (fun i => (1 - r) * m i + r * x i) = c := by
  have e : (fun i => (1 - r) * m i + r * x i) = (1 - r) • m + r • x := by funext i; simp
  rw [e, dotProduct_add, dotProduct_smul, dotProduct_smul, hm, hx, smul_eq_mul, smul_eq_mul]; ring

theorem outer_mulVec (u v w : ι → K) : outer u v *ᵥ w = (w ⬝ᵥ v) • u := by
  funext i
  simp only [mulVec, dotProduct, outer, Matrix.of_apply, Pi.smul_apply, smul_eq_mul, Finset.sum_mul]
  exact Finset.sum_congr rfl fun j _ => by ring

theorem rel_empUpdate {w : ι → K} {c : K} {s : EmpState ι K} {x : ι → K} (hm : s.nSamples = 0 ∨ w ⬝ᵥ s.mean = c) (hC : s.cov *ᵥ w = 0)
    (hx : w ⬝ᵥ x = c) : w ⬝ᵥ (empUpdate s x).mean = c ∧ (empUpdate s x).cov *ᵥ w = 0 := by
  have h1 : w ⬝ᵥ (empUpdate s x).mean = c := rel_meanStep s.nSamples hm hx
  refine ⟨h1, ?_⟩
  have e : (empUpdate s x).cov = (((s.nSamples + 1 - 1 : ℕ) : K) / ((s.nSamples + 1 : ℕ) : K)) • s.cov
      + (((s.nSamples + 1 : ℕ) : K)⁻¹) • outer (x - s.mean) (x - (empUpdate s x).mean) := by
    ext i j
    show s.cov i j * ((s.nSamples + 1 - 1 : ℕ) : K) / ((s.nSamples + 1 : ℕ) : K)
      + (x i - s.mean i) * ((x j - (empUpdate s x).mean j) / ((s.nSamples + 1 : ℕ) : K)) = _
    simp only [Matrix.add_apply, Matrix.smul_apply, outer, Matrix.of_apply, Pi.sub_apply, smul_eq_mul]
    have hn : ((s.nSamples + 1 : ℕ) : K) ≠ 0 := Nat.cast_ne_zero.2 (Nat.succ_ne_zero _)
    field_simp
  rw [e, add_mulVec, smul_mulVec, smul_mulVec, hC, outer_mulVec, dotProduct_sub, hx, h1, sub_self]
  simp

theorem rel_ewaBlend {w : ι → K} {c : K} {s : EmpState ι K} {x : ι → K} (r : K) (hm : w ⬝ᵥ s.mean = c) (hC : s.cov *ᵥ w = 0)
    (hx : w ⬝ᵥ x = c) : w ⬝ᵥ (ewaBlend r s x).mean = c ∧ (ewaBlend r s x).cov *ᵥ w = 0 := by
  refine ⟨rel_blend r hm hx, ?_⟩
  show ((1 - r) • s.cov + r • outer (fun i => x i - s.mean i) (fun i => x i - s.mean i)) *ᵥ w = 0
  rw [add_mulVec, smul_mulVec, smul_mulVec, hC, outer_mulVec, show (fun i => x i - s.mean i) = x - s.mean from rfl, dotProduct_sub, hx, hm, sub_self]
  simp

theorem rel_empFold {w : ι → K} {c : K} (xs : List (ι → K)) (h : Obeys w c xs) :
    ((empFold xs).nSamples = 0 ∨ w ⬝ᵥ (empFold xs).mean = c) ∧ (empFold xs).cov *ᵥ w = 0 := by
  induction xs using List.reverseRecOn with
  | nil => exact ⟨Or.inl rfl, by show (0 : Matrix ι ι K) *ᵥ w = 0; simp⟩
  | append_singleton xs x ih =>
    obtain ⟨h1, h2⟩ := Obeys.snoc h
    obtain ⟨i1, i2⟩ := ih h1
    have := rel_empUpdate i1 i2 h2
    have e : empFold (xs ++ [x]) = empUpdate (empFold xs) x := by simp [empFold]
    rw [e]
    exact ⟨Or.inr this.1, this.2⟩

end field

section ordered
variable {ι K : Type} [Fintype ι] [Field K] [LinearOrder K] [IsStrictOrderedRing K]

/-- C123 (EmpiricalCovariance): the location satisfies the relation and `covariance_ @ w` is exactly zero. -/
theorem C123_empirical (d : Bool) (calls : List (Call ι K)) (w : ι → K) (c : K) (h : Obeys w c (used d calls)) (m : ι → K) (C : Matrix ι ι K)
    (hm : ((new (empiricalCls ι K) d).run calls).location = .ok m) (hC : ((new (empiricalCls ι K) d).run calls).covariance = .ok C) :
    w ⬝ᵥ m = c ∧ C *ᵥ w = 0 := by
  obtain ⟨hne, e1⟩ := run_location_inv (empirical_lawful ι K) d calls m hm
  obtain ⟨_, e2⟩ := run_covariance_inv (empirical_lawful ι K) d calls C hC
  change used d calls ≠ [] at hne
  change m = (empFold (used d calls)).mean at e1
  change C = toSymmetric (empFold (used d calls)).cov at e2
  obtain ⟨i1, i2⟩ := rel_empFold _ h
  have hs : Symm (empFold (used d calls)).cov := by rw [empFold_cov hne]; exact symm_covOf _
  rw [toSymmetric_of_symm hs] at e2
  rw [e1, e2]
  refine ⟨i1.resolve_left ?_, i2⟩
  have := hne
  obtain ⟨ys, y, hy⟩ := List.eq_nil_or_concat (used d calls) |>.resolve_left hne
  rw [List.concat_eq_append] at hy
  rw [hy, show empFold (ys ++ [y]) = empUpdate (empFold ys) y by simp [empFold]]
  exact Nat.succ_ne_zero _

variable [FloorRing K]

theorem rel_ewaFold {w : ι → K} {c : K} (r : K) (xs : List (ι → K)) (h : Obeys w c xs) :
    ((ewaFold r xs).nSamples = 0 ∨ w ⬝ᵥ (ewaFold r xs).mean = c) ∧ (ewaFold r xs).cov *ᵥ w = 0 := by
  induction xs using List.reverseRecOn with
  | nil => exact ⟨Or.inl rfl, by show (0 : Matrix ι ι K) *ᵥ w = 0; simp⟩
  | append_singleton xs x ih =>
    obtain ⟨h1, h2⟩ := Obeys.snoc h
    obtain ⟨i1, i2⟩ := ih h1
    have e : ewaFold r (xs ++ [x]) = ewaUpdate (ewaFold r xs) x := by simp [ewaFold]
    have hb := ewaFold_nBurn r xs
    rw [e]
    generalize ewaFold r xs = s at *
    unfold ewaUpdate
    split
    · have := rel_empUpdate i1 i2 h2
      exact ⟨Or.inr this.1, this.2⟩
    · rename_i hlt
      have h5 := ewaBurnN_ge r
      have := rel_ewaBlend s.r (i1.resolve_left (by omega)) i2 h2
      exact ⟨Or.inr this.1, this.2⟩

/-- C123 (EwaCovariance): the same, for every rate. -/
theorem C123_ewa (p : RParam K) (calls : List (Call ι K)) (w : ι → K) (c : K) (h : Obeys w c (used p.diff calls)) (m : ι → K) (C : Matrix ι ι K)
    (hm : ((new (ewaCls ι K) p).run calls).location = .ok m) (hC : ((new (ewaCls ι K) p).run calls).covariance = .ok C) :
    w ⬝ᵥ m = c ∧ C *ᵥ w = 0 := by
  obtain ⟨hne, e2⟩ := ewa_attrs_inv p calls C hC
  obtain ⟨_, e1⟩ := run_location_inv (ewa_lawful ι K) p calls m hm
  change m = (ewaFold p.r (used p.diff calls)).mean at e1
  obtain ⟨i1, i2⟩ := rel_ewaFold p.r _ h
  rw [e1, e2]
  refine ⟨i1.resolve_left ?_, i2⟩
  rw [ewaFold_n]
  exact fun h0 => hne (List.length_eq_zero_iff.1 h0)

/-- C123 (duplicated column): if two columns are always equal, their rows of the EWA covariance are equal. -/
theorem C123_duplicate [DecidableEq ι] (p : RParam K) (calls : List (Call ι K)) (i j : ι) (h : ∀ x ∈ used p.diff calls, x i = x j) (m : ι → K) (C : Matrix ι ι K)
    (hm : ((new (ewaCls ι K) p).run calls).location = .ok m) (hC : ((new (ewaCls ι K) p).run calls).covariance = .ok C) :
    m i = m j ∧ ∀ k, C k i = C k j := by
  have := C123_ewa p calls (Pi.single i 1 - Pi.single j 1) 0 (fun x hx => by rw [sub_dotProduct, single_dotProduct, single_dotProduct, h x hx]; ring) m C hm hC
  obtain ⟨h1, h2⟩ := this
  rw [sub_dotProduct, single_dotProduct, single_dotProduct] at h1
  refine ⟨by linear_combination h1, fun k => ?_⟩
  have := congrFun h2 k
  rw [mulVec_sub, Pi.sub_apply, mulVec_single_one, mulVec_single_one] at this
  simpa [sub_eq_zero] using this

/-- C123 (violation, LedoitWolfCovariance): the relation `w` becomes an eigenvector of `covariance_` whose eigenvalue is the shrinkage
intensity times the average variance. -/
theorem C123_ledoit_wolf [DecidableEq ι] [Nonempty ι] (p : RParam K) (h0 : 0 ≤ p.r) (h1 : p.r ≤ 1) (calls : List (Call ι K)) (w : ι → K) (c : K)
    (h : Obeys w c (used p.diff calls)) (C : Matrix ι ι K) (hC : ((new (ledoitWolfCls ι K) p).run calls).covariance = .ok C) :
    ∃ a S, 0 ≤ a ∧ a ≤ 1 ∧ ((new (ewaCls ι K) p).run calls).covariance = .ok S ∧ C = (1 - a) • S + (a * (S.trace / (Fintype.card ι : K))) • 1 ∧
      C *ᵥ w = (a * (C.trace / (Fintype.card ι : K))) • w := by
  have hne := (run_covariance_inv (ledoitWolf_lawful ι K) p calls C hC).1
  have hS := (ewa_attrs p calls hne).2
  obtain ⟨a, a0, a1, e, ht, _⟩ := C27_convex p h0 h1 calls C _ hC hS
  refine ⟨a, _, a0, a1, hS, e, ?_⟩
  have z := (rel_ewaFold p.r _ h).2
  rw [ht]
  conv_lhs => rw [e]
  rw [add_mulVec, smul_mulVec, smul_mulVec, z, one_mulVec]
  simp

/-- C123 (violation, OASCovariance): with `0 < r ≤ 1` the combination `w` gets a positive variance, at every moment at which
any variable has a positive variance, although it never moved. -/
theorem C123_oas [DecidableEq ι] [Nonempty ι] (p : RParam K) (h0 : 0 < p.r) (h1 : p.r ≤ 1) (calls : List (Call ι K)) (w : ι → K) (c : K)
    (h : Obeys w c (used p.diff calls)) (C : Matrix ι ι K) (hC : ((new (oasCls ι K) p).run calls).covariance = .ok C) :
    ∃ rho, 0 ≤ rho ∧ rho ≤ 1 ∧ C *ᵥ w = (rho * (C.trace / (Fintype.card ι : K))) • w ∧ (C ≠ 0 → w ≠ 0 → 0 < rho ∧ 0 < quad C w) := by
  have hne := (run_covariance_inv (oas_lawful ι K) p calls C hC).1
  have hS := (ewa_attrs p calls hne).2
  obtain ⟨_, r0, r1, e, hpos⟩ := C28_intensity p h0 h1 calls C _ hC hS
  obtain ⟨ht, _, _, _, hpd⟩ := C28_invertible p h0 h1 calls C _ hC hS
  have z := (rel_ewaFold p.r _ h).2
  refine ⟨_, r0, r1, ?_, fun hc hw => ?_⟩
  · rw [ht]
    conv_lhs => rw [e]
    rw [add_mulVec, smul_mulVec, smul_mulVec, z, one_mulVec]
    simp
  · have hS0 : (ewaFold p.r (used p.diff calls)).cov ≠ 0 := by
      intro hz
      apply hc
      rw [e, hz]
      simp
    exact ⟨hpos hS0, (hpd hS0).2 w hw⟩

end ordered

section real
variable {ι : Type} [Fintype ι] [DecidableEq ι] (L : Lapack)

/-- C123 (ShrunkCovariance, identity target): the same eigenvector, with eigenvalue `delta` times the average variance. -/
theorem C123_shrunk [Nonempty ι] (p : ShrunkParam) (ht : p.target = "identity") (calls : List (Call ι ℝ)) (w : ι → ℝ) (c : ℝ)
    (h : Obeys w c (used p.diff calls)) (C : Matrix ι ι ℝ) (hC : ((new (shrunkCls ι) p).run calls).covariance = .ok C) :
    C *ᵥ w = (p.delta * (C.trace / (Fintype.card ι : ℝ))) • w := by
  have hne := (run_covariance_inv (shrunk_lawful ι) p calls C hC).1
  have hS := (ewa_attrs (⟨p.r, p.diff⟩ : RParam ℝ) calls hne).2
  obtain ⟨e, htr, _⟩ := C29_identity p ht calls C _ hC hS
  have z := (rel_ewaFold p.r _ h).2
  rw [htr]
  conv_lhs => rw [e]
  rw [add_mulVec, smul_mulVec, smul_mulVec]
  change (1 - p.delta) • ((ewaFold p.r (used p.diff calls)).cov *ᵥ w) + _ = _
  rw [z, one_mulVec]
  simp

theorem rel_huberFold {w : ι → ℝ} {c : ℝ} (pr : HuberParam) (xs : List (ι → ℝ)) (h : Obeys w c xs) :
    ((huberFold L pr xs).nSamples = 0 ∨ w ⬝ᵥ (huberFold L pr xs).mean = c) ∧ (huberFold L pr xs).cov *ᵥ w = 0 := by
  induction xs using List.reverseRecOn with
  | nil => exact ⟨Or.inl rfl, by show (0 : Matrix ι ι ℝ) *ᵥ w = 0; simp⟩
  | append_singleton xs x ih =>
    obtain ⟨h1, h2⟩ := Obeys.snoc h
    obtain ⟨i1, i2⟩ := ih h1
    obtain ⟨hn, hr, hb⟩ := huber_inv L pr xs
    change (huberFold L pr xs).nBurn = _ at hb
    rw [huberFold_snoc]
    generalize huberFold L pr xs = s at *
    unfold huberUpdate
    split
    · have := rel_empUpdate i1 i2 h2
      exact ⟨Or.inr this.1, this.2⟩
    · rename_i hlt
      have h5 := ewaBurnN_ge pr.r
      have hm := i1.resolve_left (by omega)
      simp only []
      generalize huberWeight L pr.c s.cov _ = k
      have hd : w ⬝ᵥ (fun i => k * (x i - s.mean i)) = 0 := by
        rw [show (fun i => k * (x i - s.mean i)) = k • (x - s.mean) from rfl, dotProduct_smul, dotProduct_sub, h2, hm, sub_self, smul_zero]
      refine ⟨Or.inr ?_, ?_⟩
      · show w ⬝ᵥ (fun i => s.mean i + s.r * (k * (x i - s.mean i))) = c
        rw [show (fun i => s.mean i + s.r * (k * (x i - s.mean i))) = s.mean + s.r • (fun i => k * (x i - s.mean i)) from rfl,
          dotProduct_add, dotProduct_smul, hd, hm, smul_zero, add_zero]
      · rw [add_mulVec, smul_mulVec, smul_mulVec, i2, outer_mulVec, hd]
        simp

/-- C123 (HuberCovariance): the relation survives the down-weighting of outliers. -/
theorem C123_huber (p : HuberParam) (calls : List (Call ι ℝ)) (w : ι → ℝ) (c : ℝ) (h : Obeys w c (used p.diff calls)) (m : ι → ℝ) (C : Matrix ι ι ℝ)
    (hm : ((new (huberCls L ι) p).run calls).location = .ok m) (hC : ((new (huberCls L ι) p).run calls).covariance = .ok C) :
    w ⬝ᵥ m = c ∧ C *ᵥ w = 0 := by
  obtain ⟨e1, e2⟩ := huber_attrs L p calls C m hC hm
  have hne := (run_location_inv (huber_lawful L ι) p calls m hm).1
  obtain ⟨i1, i2⟩ := rel_huberFold L p _ h
  rw [e1, e2]
  refine ⟨i1.resolve_left ?_, i2⟩
  have hn := (huber_inv L p (used p.diff calls)).1
  change (huberFold L p (used p.diff calls)).nSamples = _ at hn
  rw [hn]
  exact fun h0 => hne (List.length_eq_zero_iff.1 h0)

/-- C123 (AdaptiveEwaCovariance): the relation survives the changing rate. -/
theorem C123_adaptive (p : AdaParam) (calls : List (Call ι ℝ)) (w : ι → ℝ) (c : ℝ) (h : Obeys w c (used p.diff calls)) (m : ι → ℝ) (C : Matrix ι ι ℝ)
    (hm : ((new (adaptiveCls L ι) p).run calls).location = .ok m) (hC : ((new (adaptiveCls L ι) p).run calls).covariance = .ok C) :
    w ⬝ᵥ m = c ∧ C *ᵥ w = 0 := by
  obtain ⟨hne, e1⟩ := run_location_inv (adaptive_lawful L ι) p calls m hm
  obtain ⟨_, e2⟩ := run_covariance_inv (adaptive_lawful L ι) p calls C hC
  change m = ((used p.diff calls).foldl (adaUpdate L) { toEwaState := ewaInit p.r, maxR := p.maxR, sbar := 1 }).mean at e1
  change C = toSymmetric ((used p.diff calls).foldl (adaUpdate L) { toEwaState := ewaInit p.r, maxR := p.maxR, sbar := 1 }).cov at e2
  change used p.diff calls ≠ [] at hne
  generalize used p.diff calls = xs at *
  have key : (((xs.foldl (adaUpdate L) { toEwaState := ewaInit p.r, maxR := p.maxR, sbar := 1 }).nSamples = 0 ∨
      w ⬝ᵥ (xs.foldl (adaUpdate L) { toEwaState := ewaInit p.r, maxR := p.maxR, sbar := 1 }).mean = c)) ∧
      Symm (xs.foldl (adaUpdate L) { toEwaState := ewaInit p.r, maxR := p.maxR, sbar := 1 }).cov ∧
      (xs.foldl (adaUpdate L) { toEwaState := ewaInit p.r, maxR := p.maxR, sbar := 1 }).cov *ᵥ w = 0 := by
    clear e1 e2 hne
    induction xs using List.reverseRecOn with
    | nil => exact ⟨Or.inl rfl, symm_zero, by show (0 : Matrix ι ι ℝ) *ᵥ w = 0; simp⟩
    | append_singleton xs x ih =>
      obtain ⟨h1, h2⟩ := Obeys.snoc h
      obtain ⟨i1, i3, i2⟩ := ih h1
      obtain ⟨hn, hr, hb, _⟩ := ada_inv L p xs
      rw [List.foldl_append, List.foldl_cons, List.foldl_nil]
      generalize xs.foldl (adaUpdate L) ({ toEwaState := ewaInit p.r, maxR := p.maxR, sbar := 1 } : AdaState ι) = s at *
      unfold adaUpdate
      split
      · have := rel_empUpdate i1 i2 h2
        exact ⟨Or.inr this.1, symm_empUpdate i3 x, this.2⟩
      · rename_i hlt
        have h5 := ewaBurnN_ge p.r
        have := rel_ewaBlend (adaRate L s (fun i => x i - s.mean i)) (i1.resolve_left (by omega)) i2 h2
        exact ⟨Or.inr this.1, (i3.smul _).add ((symm_outer _).smul _), this.2⟩
  obtain ⟨k1, k2, k3⟩ := key
  rw [toSymmetric_of_symm k2] at e2
  rw [e1, e2]
  refine ⟨k1.resolve_left ?_, k3⟩
  rw [(ada_inv L p xs).1]
  exact fun h0 => hne (List.length_eq_zero_iff.1 h0)

/-- C123: `location_` satisfies the relation in every other class as well. -/
theorem C123_location (p : RParam ℝ) (delta : ℝ) (target : String) (calls : List (Call ι ℝ)) (w : ι → ℝ) (c : ℝ) (h : Obeys w c (used p.diff calls)) (m : ι → ℝ)
    (hm : ((new (diagonalCls ι ℝ) p).run calls).location = .ok m ∨ ((new (ledoitWolfCls ι ℝ) p).run calls).location = .ok m ∨
      ((new (oasCls ι ℝ) p).run calls).location = .ok m ∨ ((new (shrunkCls ι) ⟨p.r, delta, target, p.diff⟩).run calls).location = .ok m ∨
      ((new (partialMomentsCls L ι) p).run calls).location = .ok m ∨ ((new (tylerCls L ι) p).run calls).location = .ok m ∨
      ((new (geodesicCls L ι) p).run calls).location = .ok m) : w ⬝ᵥ m = c := by
  obtain ⟨a1, a2, a3⟩ := C22_same_location p calls
  obtain ⟨b1, b2, b3, b4⟩ := C22_same_location_real L p delta target calls
  rw [a1, a2, a3, b1, b2, b3, b4] at hm
  simp only [or_self] at hm
  obtain ⟨hne, -⟩ := run_location_inv (ewa_lawful ι ℝ) p calls m hm
  exact (C123_ewa p calls w c h m _ hm (ewa_attrs p calls hne).2).1

theorem C123_location_blocks {d : ℕ} (hd : 1 ≤ d) (p : RParam ℝ) (nb : ℤ) (gamma : ℝ) (interp : String) (calls : List (Call (Fin d) ℝ))
    (w : Fin d → ℝ) (c : ℝ) (h : Obeys w c (used p.diff calls)) (m : Fin d → ℝ)
    (hm : ((new (blockCls L d) ⟨p.r, nb, p.diff⟩).run calls).location = .ok m ∨
      ((new (schurCls L d) ⟨p.r, nb, gamma, interp, p.diff⟩).run calls).location = .ok m ∨
      ((new (schurLWCls L d) ⟨p.r, nb, p.diff⟩).run calls).location = .ok m ∨
      ((new (schurCondCls L d) ⟨p.r, nb, p.diff⟩).run calls).location = .ok m) : w ⬝ᵥ m = c := by
  obtain ⟨b1, b2, b3, b4⟩ := C22_same_location_blocks L hd p nb gamma interp calls
  rw [b1, b2, b3, b4] at hm
  simp only [or_self] at hm
  obtain ⟨hne, -⟩ := run_location_inv (ewa_lawful (Fin d) ℝ) p calls m hm
  exact (C123_ewa p calls w c h m _ hm (ewa_attrs p calls hne).2).1

theorem C123_location_dcc (p : DCCParam) (calls : List (Call ι ℝ)) (w : ι → ℝ) (c : ℝ) (h : Obeys w c (used p.diff calls)) (m : ι → ℝ)
    (hm : ((new (dccCls ι) p).run calls).location = .ok m) : w ⬝ᵥ m = c := by
  obtain ⟨hne, e1⟩ := run_location_inv (dcc_lawful ι) p calls m hm
  change m = (dccFold p (used p.diff calls)).mean at e1
  change used p.diff calls ≠ [] at hne
  rw [e1]
  generalize used p.diff calls = xs at *
  have key : (dccFold p xs).nSamples = 0 ∨ w ⬝ᵥ (dccFold p xs).mean = c := by
    clear e1 hne
    induction xs using List.reverseRecOn with
    | nil => exact Or.inl rfl
    | append_singleton xs x ih =>
      obtain ⟨h1, h2⟩ := Obeys.snoc h
      have i1 := ih h1
      obtain ⟨_, _, _, hb⟩ := dccFold_inv p xs
      rw [dccFold_snoc]
      generalize dccFold p xs = s at *
      right
      have h5 := ewaBurnN_ge (min p.r (p.volR.getD p.r))
      unfold dccUpdate
      simp only []
      split
      · exact rel_meanStep s.nSamples i1 h2
      · exact rel_blend _ (i1.resolve_left (by omega)) h2
  refine key.resolve_left ?_
  rw [(dccFold_inv p xs).1]
  exact fun h0 => hne (List.length_eq_zero_iff.1 h0)

theorem rel_factorLoop {w : ι → ℝ} (lr : ℝ) (V : List (ι → ℝ)) (u : ι → ℝ) (hV : ∀ v ∈ V, w ⬝ᵥ v = 0) (hu : w ⬝ᵥ u = 0) :
    ∀ v ∈ factorLoop lr V u, w ⬝ᵥ v = 0 := by
  induction V generalizing u with
  | nil => intro v hv; cases hv
  | cons v vs ih =>
    have hv0 := hV v (by simp)
    have hvs := fun z hz => hV z (List.mem_cons_of_mem _ hz)
    unfold factorLoop
    simp only []
    split
    · intro z hz
      rcases List.mem_cons.1 hz with rfl | hz
      · exact hu
      · exact hvs z hz
    · generalize (∑ i, u i * (v i / vecNorm v)) = q
      intro z hz
      rcases List.mem_cons.1 hz with rfl | hz
      · rw [show (fun i => (1 - lr) * v i + lr * q * u i) = (1 - lr) • v + (lr * q) • u from rfl, dotProduct_add, dotProduct_smul, dotProduct_smul, hv0, hu]
        simp
      · refine ih _ hvs ?_ z hz
        rw [show (fun i => u i - q * (v i / vecNorm v)) = u - (q / vecNorm v) • v by
          funext i; simp only [Pi.sub_apply, Pi.smul_apply, smul_eq_mul]; ring, dotProduct_sub, dotProduct_smul, hv0, hu]
        simp

/-- C123 (FactorCovariance): the location satisfies the relation. If the relation is homogeneous (`c = 0`; always so with `diff=True`),
it holds for the factors too: `covariance_` is a factor part that gives the combination `w` no variance, plus a diagonal: what
variance the combination gets is `∑ w_i² D_i`, idiosyncratic variance only. -/
theorem C123_factor (p : FactorParam) (calls : List (Call ι ℝ)) (w : ι → ℝ) (c : ℝ) (h : Obeys w c (used p.diff calls)) (m : ι → ℝ) (C : Matrix ι ι ℝ)
    (hm : ((new (factorCls ι) p).run calls).location = .ok m) (hC : ((new (factorCls ι) p).run calls).covariance = .ok C) :
    w ⬝ᵥ m = c ∧ (c = 0 → ∃ F : Matrix ι ι ℝ, ∃ D : ι → ℝ, PSD F ∧ (∀ i, 0 ≤ D i) ∧ C = F + diagonal D ∧ F *ᵥ w = 0 ∧ quad C w = ∑ i, w i ^ 2 * D i) := by
  obtain ⟨hne, e1⟩ := run_location_inv (factor_lawful ι) p calls m hm
  obtain ⟨_, e2⟩ := run_covariance_inv (factor_lawful ι) p calls C hC
  change m = (factorFold p (used p.diff calls)).mean at e1
  change C = toSymmetric (factorCov (factorFold p (used p.diff calls))) at e2
  change used p.diff calls ≠ [] at hne
  generalize used p.diff calls = xs at *
  have key : ((factorFold p xs).nSamples = 0 ∧ (factorFold p xs).mean = (fun _ => 0) ∨ w ⬝ᵥ (factorFold p xs).mean = c) ∧ (c = 0 → ∀ v ∈ (factorFold p xs).V, w ⬝ᵥ v = 0) := by
    clear e1 e2 hne
    induction xs using List.reverseRecOn with
    | nil =>
      refine ⟨Or.inl ⟨rfl, rfl⟩, fun _ v hv => ?_⟩
      obtain ⟨_, rfl⟩ := List.mem_replicate.1 hv
      simp
    | append_singleton xs x ih =>
      obtain ⟨h1, h2⟩ := Obeys.snoc h
      obtain ⟨i1, i2⟩ := ih h1
      obtain ⟨_, _, _, hb⟩ := factorFold_inv p xs
      rw [factorFold_snoc]
      generalize factorFold p xs = s at *
      refine ⟨Or.inr ?_, fun hc => ?_⟩
      · show w ⬝ᵥ (if s.nSamples + 1 ≤ s.nBurn then (fun i => s.mean i + (x i - s.mean i) / ((s.nSamples + 1 : ℕ) : ℝ)) else fun i => (1 - s.r) * s.mean i + s.r * x i) = c
        split
        · exact rel_meanStep s.nSamples (i1.imp (fun h => h.1) id) h2
        · exact rel_blend _ (i1.resolve_left (fun h => by omega)) h2
      · show ∀ v ∈ factorLoop _ s.V (fun i => x i - s.mean i), w ⬝ᵥ v = 0
        refine rel_factorLoop _ _ _ (i2 hc) ?_
        rw [show (fun i => x i - s.mean i) = x - s.mean from rfl, dotProduct_sub, h2]
        rcases i1 with ⟨_, h0⟩ | h0
        · rw [h0, hc]; simp [dotProduct]
        · rw [h0, sub_self]
  refine ⟨?_, fun hc => ?_⟩
  · rw [e1]
    refine key.1.resolve_left ?_
    rw [(factorFold_inv p xs).1]
    exact fun h0 => hne (List.length_eq_zero_iff.1 h0.1)
  · have hF := factorPart_psd (factorFold p xs).V
    have hs : Symm (factorCov (factorFold p xs)) := hF.1.add (symm_diagonal _)
    rw [toSymmetric_of_symm hs] at e2
    have hw : factorPart (factorFold p xs).V *ᵥ w = 0 := by
      have hA : ∀ v ∈ factorActive (factorFold p xs).V, w ⬝ᵥ v = 0 := by
        intro v hv
        classical
        exact key.2 hc v (List.mem_of_mem_filter hv)
      unfold factorPart
      generalize factorActive (factorFold p xs).V = A at hA
      induction A with
      | nil => simp
      | cons v vs ih =>
        rw [List.map_cons, List.sum_cons, add_mulVec, ih (fun z hz => hA z (List.mem_cons_of_mem _ hz)), smul_mulVec, outer_mulVec, hA v (by simp)]
        simp
    refine ⟨_, _, hF, fun i => le_max_right _ _, e2, hw, ?_⟩
    rw [e2]
    unfold factorCov
    have q : ∀ A : Matrix ι ι ℝ, quad A w = w ⬝ᵥ (A *ᵥ w) := by
      intro A
      simp only [quad, dotProduct, mulVec, Finset.mul_sum]
      try exact Finset.sum_congr rfl fun i _ => Finset.sum_congr rfl fun j _ => by ring
    rw [q, add_mulVec, hw, zero_add]
    simp only [dotProduct, mulVec_diagonal]
    exact Finset.sum_congr rfl fun i _ => by ring

end real

/-! Non-vacuity: an index column that is the sum of the two other columns. -/

def indexRows : List (Fin 3 → ℚ) := [![1, 2, 3], ![2, 0, 2], ![4, 1, 5]]

theorem indexRows_obey : Obeys (![1, 1, -1] : Fin 3 → ℚ) 0 indexRows := by
  intro x hx
  simp only [indexRows, List.mem_cons, List.not_mem_nil, or_false] at hx
  rcases hx with rfl | rfl | rfl <;> simp [dotProduct, Fin.sum_univ_three] <;> norm_num

theorem indexRows_used (d : Bool) (hd : d = false) : used d [.partialFit (.batch indexRows)] = indexRows := by
  subst hd; rfl

/-- EmpiricalCovariance gives the difference between index and members no variance, OASCovariance a positive one. -/
example : (∃ C, ((new (empiricalCls (Fin 3) ℚ) false).run [.partialFit (.batch indexRows)]).covariance = .ok C ∧ C *ᵥ ![1, 1, -1] = 0 ∧ C 0 0 = 14 / 9) ∧
    ∃ C, ((new (oasCls (Fin 3) ℚ) ⟨1 / 20, false⟩).run [.partialFit (.batch indexRows)]).covariance = .ok C ∧ 0 < quad C ![1, 1, -1] := by
  have hne : used false [.partialFit (.batch indexRows)] ≠ [] := by rw [indexRows_used _ rfl]; simp [indexRows]
  have hb := C15_batch (ι := Fin 3) (K := ℚ) false [.partialFit (.batch indexRows)] hne
  have hC := hb.2.1
  rw [indexRows_used _ rfl] at hC
  have h00 : covOf indexRows 0 0 = 14 / 9 := by norm_num [covOf, meanOf, indexRows]
  refine ⟨⟨_, hC, (C123_empirical false _ _ _ indexRows_obey _ _ hb.1 hC).2, h00⟩, ?_⟩
  have hO := run_covariance (oas_lawful (Fin 3) ℚ) (⟨1 / 20, false⟩ : RParam ℚ) [.partialFit (.batch indexRows)] hne
  refine ⟨_, hO, ?_⟩
  have hE : ((new (ewaCls (Fin 3) ℚ) ⟨1 / 20, false⟩).run [.partialFit (.batch indexRows)]).covariance = .ok (covOf indexRows) := by
    rw [(C19_burn_in_is_empirical (⟨1 / 20, false⟩ : RParam ℚ) _ (by
      rw [indexRows_used _ rfl]; exact le_trans (by simp [indexRows]) (ewaBurnN_ge _))).2.1]
    exact hC
  obtain ⟨ht, _, _, _, hpd⟩ := C28_invertible (⟨1 / 20, false⟩ : RParam ℚ) (by norm_num) (by norm_num) _ _ _ hO hE
  have hS : covOf indexRows ≠ 0 := fun h0 => by rw [h0] at h00; norm_num at h00
  exact (hpd hS).2 _ (fun h0 => by have := congrFun h0 0; norm_num at this)

end Precise
