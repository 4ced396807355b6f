import Verif.Spec.Pooling
import Verif.Spec.Suggest
import Verif.Props.Ewa
import Verif.Props.Diagonal
import Verif.Props.Forgetting
import Verif.Props.Robust

/-!
# C127: pooling empirical estimates, and going on from what an estimator shows
-/

set_option linter.all false

open Matrix

namespace Precise

open Spec Obj

variable {ι : Type} [Fintype ι] [DecidableEq ι]

/-! ## Pooling -/

omit [Fintype ι] [DecidableEq ι] in
theorem sum_eq_mean {xs : List (ι → ℝ)} (h : xs ≠ []) (i : ι) : (xs.map fun x => x i).sum = xs.length * meanOf xs i := by
  have hn : (xs.length : ℝ) ≠ 0 := by simpa using h
  unfold meanOf; field_simp

omit [Fintype ι] [DecidableEq ι] in
theorem moment_eq_cov {xs : List (ι → ℝ)} (h : xs ≠ []) (i j : ι) :
    (xs.map fun x => x i * x j).sum = xs.length * (covOf xs i j + meanOf xs i * meanOf xs j) := by
  have hn : (xs.length : ℝ) ≠ 0 := by simpa using h
  rw [covOf_moments h]; field_simp; ring

/-- C127: what EmpiricalCovariance shows for two streams determines what it shows for their concatenation: with `n`, `m` observations,
locations `a`, `b` and covariances `S`, `T`, the location is `(n a + m b)/(n + m)` and the covariance
`(n S + m T)/(n + m) + n m/(n + m)² (a - b)(a - b)ᵀ`. -/
theorem C127_pool (d : Bool) (A B AB : List (Call ι ℝ)) (hAB : used d AB = used d A ++ used d B) (a b : ι → ℝ) (S T : Matrix ι ι ℝ)
    (ha : ((new (empiricalCls ι ℝ) d).run A).location = .ok a) (hS : ((new (empiricalCls ι ℝ) d).run A).covariance = .ok S)
    (hb : ((new (empiricalCls ι ℝ) d).run B).location = .ok b) (hT : ((new (empiricalCls ι ℝ) d).run B).covariance = .ok T) :
    let n : ℝ := (((new (empiricalCls ι ℝ) d).run A).nSamples : ℕ)
    let m : ℝ := (((new (empiricalCls ι ℝ) d).run B).nSamples : ℕ)
    ((new (empiricalCls ι ℝ) d).run AB).location = .ok (fun i => (n * a i + m * b i) / (n + m)) ∧
    ((new (empiricalCls ι ℝ) d).run AB).covariance =
      .ok (Matrix.of fun i j => (n * S i j + m * T i j) / (n + m) + n * m / (n + m) ^ 2 * ((a i - b i) * (a j - b j))) := by
  have hA := (run_location_inv (empirical_lawful ι ℝ) d A a ha).1
  have hB := (run_location_inv (empirical_lawful ι ℝ) d B b hb).1
  change used d A ≠ [] at hA
  change used d B ≠ [] at hB
  obtain ⟨a1, a2, a3⟩ := C15_batch d A hA
  obtain ⟨b1, b2, b3⟩ := C15_batch d B hB
  have hne : used d AB ≠ [] := by rw [hAB]; simp [hA]
  obtain ⟨c1, c2, _⟩ := C15_batch d AB hne
  rw [ha] at a1; rw [hS] at a2; rw [hb] at b1; rw [hT] at b2
  obtain rfl := Except.ok.inj a1
  obtain rfl := Except.ok.inj a2
  obtain rfl := Except.ok.inj b1
  obtain rfl := Except.ok.inj b2
  intro n m
  have en : n = ((used d A).length : ℝ) := congrArg Nat.cast a3
  have em : m = ((used d B).length : ℝ) := congrArg Nat.cast b3
  rw [c1, c2, hAB, en, em]
  clear_value n m
  generalize used d A = xs at *
  generalize used d B = ys at *
  have hn : (0 : ℝ) < xs.length := by exact_mod_cast List.length_pos_iff.2 hA
  have hm : (0 : ℝ) < ys.length := by exact_mod_cast List.length_pos_iff.2 hB
  have hmean : ∀ i, meanOf (xs ++ ys) i = (xs.length * meanOf xs i + ys.length * meanOf ys i) / (xs.length + ys.length) := by
    intro i
    rw [← sum_eq_mean hA, ← sum_eq_mean hB]
    simp [meanOf]
  refine ⟨?_, ?_⟩
  · congr 1; funext i; exact hmean i
  · congr 1; ext i j
    rw [covOf_moments (by simp [hA]), hmean, hmean]
    simp only [List.map_append, List.sum_append, List.length_append, of_apply, Nat.cast_add]
    rw [moment_eq_cov hA, moment_eq_cov hB]
    have : (xs.length : ℝ) + ys.length ≠ 0 := by positivity
    field_simp
    ring

/-- C127: the pooled covariance is at least the weighted average of the two, in every direction: splitting a stream never makes it look more
variable on average. -/
theorem C127_between (d : Bool) (A B AB : List (Call ι ℝ)) (hAB : used d AB = used d A ++ used d B) (a b : ι → ℝ) (S T P : Matrix ι ι ℝ)
    (ha : ((new (empiricalCls ι ℝ) d).run A).location = .ok a) (hS : ((new (empiricalCls ι ℝ) d).run A).covariance = .ok S)
    (hb : ((new (empiricalCls ι ℝ) d).run B).location = .ok b) (hT : ((new (empiricalCls ι ℝ) d).run B).covariance = .ok T)
    (hP : ((new (empiricalCls ι ℝ) d).run AB).covariance = .ok P) (v : ι → ℝ) :
    let n : ℝ := (((new (empiricalCls ι ℝ) d).run A).nSamples : ℕ)
    let m : ℝ := (((new (empiricalCls ι ℝ) d).run B).nSamples : ℕ)
    quad P v = (n * quad S v + m * quad T v) / (n + m) + n * m / (n + m) ^ 2 * (v ⬝ᵥ (fun i => a i - b i)) ^ 2 ∧
    (n * quad S v + m * quad T v) / (n + m) ≤ quad P v := by
  intro n m
  have h := (C127_pool d A B AB hAB a b S T ha hS hb hT).2
  have hP' := Except.ok.inj (hP.symm.trans h)
  have e : quad P v = (n * quad S v + m * quad T v) / (n + m) + n * m / (n + m) ^ 2 * (v ⬝ᵥ (fun i => a i - b i)) ^ 2 := by
    have hq : P = ((n / (n + m)) • S + (m / (n + m)) • T) + (n * m / (n + m) ^ 2) • outer (fun i => a i - b i) (fun i => a i - b i) := by
      rw [hP']; ext i j
      simp only [of_apply, Matrix.add_apply, Matrix.smul_apply, smul_eq_mul, outer]
      show (n * S i j + m * T i j) / (n + m) + _ = _
      ring
    have ho : quad (outer (fun i => a i - b i) (fun i => a i - b i)) v = (v ⬝ᵥ (fun i => a i - b i)) ^ 2 := by
      simp only [quad, dotProduct, Matrix.mulVec, outer, of_apply, pow_two]
      rw [Finset.sum_mul_sum]
      refine Finset.sum_congr rfl fun i _ => ?_
      rw [Finset.mul_sum]
      exact Finset.sum_congr rfl fun j _ => by ring
    rw [hq]
    simp only [quad, Matrix.add_mulVec, Matrix.smul_mulVec, dotProduct_add, dotProduct_smul, smul_eq_mul] at ho ⊢
    rw [ho]
    ring
  refine ⟨e, ?_⟩
  rw [e]
  have h0 : 0 ≤ n := Nat.cast_nonneg _
  have h1 : 0 ≤ m := Nat.cast_nonneg _
  have : 0 ≤ n * m / (n + m) ^ 2 * (v ⬝ᵥ (fun i => a i - b i)) ^ 2 := by positivity
  linarith

omit [Fintype ι] [DecidableEq ι] in
theorem moment_about {xs : List (ι → ℝ)} (h : xs ≠ []) (i j : ι) (u v : ℝ) :
    (xs.map fun x => (x i - u) * (x j - v)).sum = xs.length * (covOf xs i j + (meanOf xs i - u) * (meanOf xs j - v)) := by
  have e : ∀ ys : List (ι → ℝ), (ys.map fun x => (x i - u) * (x j - v)).sum
      = (ys.map fun x => x i * x j).sum - v * (ys.map fun x => x i).sum - u * (ys.map fun x => x j).sum + ys.length * (u * v) := by
    intro ys
    induction ys with
    | nil => simp
    | cons y ys ih => simp only [List.map_cons, List.sum_cons, List.length_cons, ih]; push_cast; ring
  rw [e, moment_eq_cov h, sum_eq_mean h, sum_eq_mean h]; ring

/-- C127: any number of streams, read each by its own object (`M g`, `S g` what the object that used `g` shows), and all of them by one: the location is the average of
theirs, the covariance the average of theirs plus the covariance of their locations, all weighted by the numbers of observations. -/
theorem C127_many (d : Bool) (gs : List (List (ι → ℝ))) (hgs : gs ≠ []) (M : List (ι → ℝ) → ι → ℝ) (S : List (ι → ℝ) → Matrix ι ι ℝ)
    (hg : ∀ g ∈ gs, ∃ calls, used d calls = g ∧ ((new (empiricalCls ι ℝ) d).run calls).location = .ok (M g) ∧
      ((new (empiricalCls ι ℝ) d).run calls).covariance = .ok (S g)) (calls : List (Call ι ℝ)) (hu : used d calls = gs.flatten) :
    ∃ (m : ι → ℝ) (c : Matrix ι ι ℝ), ((new (empiricalCls ι ℝ) d).run calls).location = .ok m ∧ ((new (empiricalCls ι ℝ) d).run calls).covariance = .ok c ∧
      (∀ i, m i = (gs.map fun g => (g.length : ℝ) * M g i).sum / (gs.map fun g => (g.length : ℝ)).sum) ∧
      ∀ i j, c i j = (gs.map fun g => (g.length : ℝ) * (S g i j + (M g i - m i) * (M g j - m j))).sum / (gs.map fun g => (g.length : ℝ)).sum := by
  have hne : ∀ g ∈ gs, g ≠ [] ∧ M g = meanOf g ∧ S g = covOf g := fun g h => by
    obtain ⟨cs, rfl, h1, h2⟩ := hg g h
    have hn := (run_location_inv (empirical_lawful ι ℝ) d cs _ h1).1
    have hb := C15_batch d cs hn
    exact ⟨hn, Except.ok.inj (h1.symm.trans hb.1), Except.ok.inj (h2.symm.trans hb.2.1)⟩
  have hf : gs.flatten ≠ [] := by
    obtain ⟨g, hm⟩ := List.exists_mem_of_ne_nil gs hgs
    intro h
    exact (hne g hm).1 (List.flatten_eq_nil_iff.1 h g hm)
  have hl : ((gs.flatten).length : ℝ) = (gs.map fun g => (g.length : ℝ)).sum := by
    clear hu hf hne hg hgs
    induction gs with
    | nil => simp
    | cons g gs ih => rw [List.flatten_cons, List.length_append, List.map_cons, List.sum_cons, ← ih]; push_cast; ring
  have hs : ∀ φ : (ι → ℝ) → ℝ, (gs.flatten.map φ).sum = (gs.map fun g => (g.map φ).sum).sum := by
    intro φ
    clear hu hf hne hg hgs hl
    induction gs with
    | nil => simp
    | cons g gs ih => rw [List.flatten_cons, List.map_append, List.sum_append, ih, List.map_cons, List.sum_cons]
  have hb := C15_batch d calls (by rw [hu]; exact hf)
  refine ⟨_, _, hb.1, hb.2.1, fun i => ?_, fun i j => ?_⟩
  · rw [hu]
    show (gs.flatten.map fun x => x i).sum / _ = _
    rw [hl, hs]
    congr 2
    exact List.map_congr_left fun g h => by rw [sum_eq_mean (hne g h).1, (hne g h).2.1]
  · rw [hu]
    show (gs.flatten.map fun x => (x i - meanOf gs.flatten i) * (x j - meanOf gs.flatten j)).sum / _ = _
    rw [hl, hs]
    congr 2
    exact List.map_congr_left fun g h => by rw [moment_about (hne g h).1, (hne g h).2.1, (hne g h).2.2]


omit [Fintype ι] [DecidableEq ι] in
theorem copies_sums (k : ℕ) (rows : List (ι → ℝ)) (g : (ι → ℝ) → ℝ) : ((copies k rows).map g).sum = k * (rows.map g).sum := by
  unfold copies
  induction k with
  | zero => simp
  | succ k ih =>
    rw [List.replicate_succ, List.flatten_cons, List.map_append, List.sum_append, ih]
    push_cast; ring

/-- C127: reading the same data `k` times over changes nothing but `n_samples_`. -/
theorem C127_again (d : Bool) (A B : List (Call ι ℝ)) (k : ℕ) (hk : 1 ≤ k) (hA : used d A ≠ []) (hB : used d B = copies k (used d A)) :
    ((new (empiricalCls ι ℝ) d).run B).location = ((new (empiricalCls ι ℝ) d).run A).location ∧
    ((new (empiricalCls ι ℝ) d).run B).covariance = ((new (empiricalCls ι ℝ) d).run A).covariance ∧
    ((new (empiricalCls ι ℝ) d).run B).nSamples = k * ((new (empiricalCls ι ℝ) d).run A).nSamples := by
  have hl : (copies k (used d A)).length = k * (used d A).length := by unfold copies; simp
  have hB' : used d B ≠ [] := by
    intro h
    have := List.length_pos_iff.2 hA
    have h2 : (used d B).length = 0 := by rw [h]; rfl
    rw [hB, hl] at h2
    have := Nat.mul_pos (by omega : 0 < k) this
    omega
  obtain ⟨a1, a2, a3⟩ := C15_batch d A hA
  obtain ⟨b1, b2, b3⟩ := C15_batch d B hB'
  have hkk : (k : ℝ) ≠ 0 := by exact_mod_cast (by omega : k ≠ 0)
  have avg : ∀ g : (ι → ℝ) → ℝ, ((copies k (used d A)).map g).sum / ((copies k (used d A)).length : ℝ) = ((used d A).map g).sum / ((used d A).length : ℝ) := by
    intro g
    rw [copies_sums, hl]; push_cast
    rw [mul_div_mul_left _ _ hkk]
  have hm : meanOf (copies k (used d A)) = meanOf (used d A) := by funext i; exact avg _
  have hc : covOf (copies k (used d A)) = covOf (used d A) := by
    ext i j; unfold covOf; rw [hm]; exact avg _
  rw [a1, a2, a3, b1, b2, b3, hB, hm, hc, hl]
  exact ⟨rfl, rfl, rfl⟩

/-- C127: one observation can be taken back. If EmpiricalCovariance shows `m'`, `S'` after `n + 1 ≥ 2` observations the last of which is `x`, then
before it it showed `m = m' - (x - m')/n` and `S = ((n+1) S' - (n+1)/n (x - m')(x - m')ᵀ)/n`. -/
theorem C127_take_back (d : Bool) (A B : List (Call ι ℝ)) (x : ι → ℝ) (hA : used d A ≠ []) (hB : used d B = used d A ++ [x])
    (m' : ι → ℝ) (S' : Matrix ι ι ℝ)
    (hm : ((new (empiricalCls ι ℝ) d).run B).location = .ok m') (hS : ((new (empiricalCls ι ℝ) d).run B).covariance = .ok S') :
    let n : ℝ := (((new (empiricalCls ι ℝ) d).run A).nSamples : ℕ)
    ((new (empiricalCls ι ℝ) d).run A).location = .ok (fun i => m' i - (x i - m' i) / n) ∧
    ((new (empiricalCls ι ℝ) d).run A).covariance =
      .ok (Matrix.of fun i j => ((n + 1) * S' i j - (n + 1) / n * ((x i - m' i) * (x j - m' j))) / n) := by
  obtain ⟨a1, a2, a3⟩ := C15_batch d A hA
  have hB' : used d B ≠ [] := by rw [hB]; simp
  obtain ⟨b1, b2, b3⟩ := C15_batch d B hB'
  rw [hm] at b1; rw [hS] at b2
  obtain rfl := Except.ok.inj b1
  obtain rfl := Except.ok.inj b2
  intro n
  have en : n = ((used d A).length : ℝ) := congrArg Nat.cast a3
  rw [a1, a2, hB, en]
  clear_value n
  generalize used d A = xs at *
  have hn : (0 : ℝ) < xs.length := by exact_mod_cast List.length_pos_iff.2 hA
  have hmean : ∀ i, meanOf (xs ++ [x]) i = (xs.length * meanOf xs i + x i) / (xs.length + 1) := by
    intro i
    rw [← sum_eq_mean hA]
    simp [meanOf]
  refine ⟨?_, ?_⟩
  · congr 1; funext i; rw [hmean]; field_simp; ring
  · congr 1; ext i j
    simp only [of_apply]
    rw [covOf_moments (xs := xs ++ [x]) (by simp), hmean, hmean]
    simp only [List.map_append, List.sum_append, List.length_append, Nat.cast_add, List.map_cons, List.map_nil, List.sum_cons, List.sum_nil,
      List.length_cons, List.length_nil, zero_add, Nat.cast_one, add_zero]
    rw [moment_eq_cov hA]
    field_simp
    ring

/-! ## Going on from what is shown -/

/-- Two states that look alike keep looking alike. -/
theorem showsAll_of_sim {C : Cls ι ℝ} (hC : Lawful C) (p : C.Param) (b : ℕ)
    (R : C.State → C.State → Prop)
    (hstart : ∀ xs ys : List (ι → ℝ), xs ≠ [] → ys ≠ [] → (xs.length = ys.length ∨ b ≤ xs.length ∧ b ≤ ys.length) →
      C.toMean p (xs.foldl (C.updateState p) (C.initState p)) = C.toMean p (ys.foldl (C.updateState p) (C.initState p)) →
      toSymmetric (C.toCov p (xs.foldl (C.updateState p) (C.initState p))) = toSymmetric (C.toCov p (ys.foldl (C.updateState p) (C.initState p))) →
      R (xs.foldl (C.updateState p) (C.initState p)) (ys.foldl (C.updateState p) (C.initState p)))
    (hstep : ∀ s t x, R s t → R (C.updateState p s x) (C.updateState p t x))
    (hm : ∀ s t, R s t → C.toMean p s = C.toMean p t) (hc : ∀ s t, R s t → C.toCov p s = C.toCov p t) : ShowsAll C p b := by
  intro A B A' B' zs m c hn a1 a2 b1 b2 hA' hB'
  obtain ⟨hA, e1⟩ := run_location_inv hC p A m a1
  obtain ⟨_, e2⟩ := run_covariance_inv hC p A c a2
  obtain ⟨hB, e3⟩ := run_location_inv hC p B m b1
  obtain ⟨_, e4⟩ := run_covariance_inv hC p B c b2
  have h0 := hstart _ _ hA hB hn (e1.symm.trans e3) (e2.symm.trans e4)
  have hR : ∀ zs : List (ι → ℝ), R ((used (C.diff p) A ++ zs).foldl (C.updateState p) (C.initState p))
      ((used (C.diff p) B ++ zs).foldl (C.updateState p) (C.initState p)) := by
    intro zs
    induction zs using List.reverseRecOn with
    | nil => simpa using h0
    | append_singleton zs z ih =>
      have e : ∀ l : List (ι → ℝ), (l ++ (zs ++ [z])).foldl (C.updateState p) (C.initState p) =
          C.updateState p ((l ++ zs).foldl (C.updateState p) (C.initState p)) z := fun l => by simp [List.foldl_append]
      rw [e, e]
      exact hstep _ _ _ ih
  have nA : used (C.diff p) A' ≠ [] := by rw [hA']; simp [hA]
  have nB : used (C.diff p) B' ≠ [] := by rw [hB']; simp [hB]
  rw [run_location hC p A' nA, run_location hC p B' nB, run_covariance hC p A' nA, run_covariance hC p B' nB, hA', hB',
    hm _ _ (hR zs), hc _ _ (hR zs)]
  exact ⟨rfl, rfl⟩

/-- C127: EwaCovariance shows all of its state that matters once its burn-in is over. -/
theorem C127_shows_ewa (p : RParam ℝ) : ShowsAll (ewaCls ι ℝ) p (ewaBurnN p.r) := by
  refine showsAll_of_sim (ewa_lawful ι ℝ) p _
    (fun (s t : EwaState ι ℝ) => s.mean = t.mean ∧ s.cov = t.cov ∧ s.r = t.r ∧ s.nBurn = t.nBurn ∧
      (s.nSamples = t.nSamples ∨ s.nBurn ≤ s.nSamples ∧ s.nBurn ≤ t.nSamples)) ?_ ?_ ?_ ?_
  · intro xs ys hx hy hn h1 h2
    change toSymmetric (ewaFold p.r xs).cov = toSymmetric (ewaFold p.r ys).cov at h2
    rw [toSymmetric_of_symm (symm_ewaFold p.r _), toSymmetric_of_symm (symm_ewaFold p.r _)] at h2
    refine ⟨h1, h2, ?_, ?_, ?_⟩
    · exact (ewaFold_r p.r xs).trans (ewaFold_r p.r ys).symm
    · exact (ewaFold_nBurn p.r xs).trans (ewaFold_nBurn p.r ys).symm
    · change (ewaFold p.r xs).nSamples = (ewaFold p.r ys).nSamples ∨ (ewaFold p.r xs).nBurn ≤ (ewaFold p.r xs).nSamples ∧ (ewaFold p.r xs).nBurn ≤ (ewaFold p.r ys).nSamples
      rw [ewaFold_n, ewaFold_n, ewaFold_nBurn]; exact hn
  · rintro (s : EwaState ι ℝ) (t : EwaState ι ℝ) x ⟨h1, h2, h3, h4, h5⟩
    obtain ⟨⟨n, m, c⟩, r, b⟩ := s
    obtain ⟨⟨n', m', c'⟩, r', b'⟩ := t
    simp only at h1 h2 h3 h4 h5
    subst h1; subst h2; subst h3; subst h4
    rcases h5 with rfl | ⟨h5, h6⟩
    · exact ⟨rfl, rfl, rfl, rfl, Or.inl rfl⟩
    · have e : ∀ k, b ≤ k → ewaUpdate (⟨⟨k, m, c⟩, r, b⟩ : EwaState ι ℝ) x = ⟨ewaBlend r ⟨k, m, c⟩ x, r, b⟩ := fun k hk => by
        unfold ewaUpdate; rw [if_neg (not_lt.2 hk)]
      change (ewaUpdate (⟨⟨n, m, c⟩, r, b⟩ : EwaState ι ℝ) x).mean = (ewaUpdate (⟨⟨n', m, c⟩, r, b⟩ : EwaState ι ℝ) x).mean ∧
        (ewaUpdate (⟨⟨n, m, c⟩, r, b⟩ : EwaState ι ℝ) x).cov = (ewaUpdate (⟨⟨n', m, c⟩, r, b⟩ : EwaState ι ℝ) x).cov ∧
        (ewaUpdate (⟨⟨n, m, c⟩, r, b⟩ : EwaState ι ℝ) x).r = (ewaUpdate (⟨⟨n', m, c⟩, r, b⟩ : EwaState ι ℝ) x).r ∧
        (ewaUpdate (⟨⟨n, m, c⟩, r, b⟩ : EwaState ι ℝ) x).nBurn = (ewaUpdate (⟨⟨n', m, c⟩, r, b⟩ : EwaState ι ℝ) x).nBurn ∧
        ((ewaUpdate (⟨⟨n, m, c⟩, r, b⟩ : EwaState ι ℝ) x).nSamples = (ewaUpdate (⟨⟨n', m, c⟩, r, b⟩ : EwaState ι ℝ) x).nSamples ∨
          (ewaUpdate (⟨⟨n, m, c⟩, r, b⟩ : EwaState ι ℝ) x).nBurn ≤ (ewaUpdate (⟨⟨n, m, c⟩, r, b⟩ : EwaState ι ℝ) x).nSamples ∧
          (ewaUpdate (⟨⟨n, m, c⟩, r, b⟩ : EwaState ι ℝ) x).nBurn ≤ (ewaUpdate (⟨⟨n', m, c⟩, r, b⟩ : EwaState ι ℝ) x).nSamples)
      rw [e n h5, e n' h6]
      exact ⟨rfl, rfl, rfl, rfl, Or.inr ⟨Nat.le_succ_of_le h5, Nat.le_succ_of_le h6⟩⟩
  · rintro s t h; exact h.1
  · rintro s t h; exact h.2.1

theorem huber_step (L : Lapack) (pr : HuberParam) (s t : EwaState ι ℝ) (x : ι → ℝ)
    (h : s.mean = t.mean ∧ s.cov = t.cov ∧ s.r = t.r ∧ s.nBurn = t.nBurn ∧ (s.nSamples = t.nSamples ∨ s.nBurn ≤ s.nSamples ∧ s.nBurn ≤ t.nSamples)) :
    (huberUpdate L pr s x).mean = (huberUpdate L pr t x).mean ∧ (huberUpdate L pr s x).cov = (huberUpdate L pr t x).cov ∧
    (huberUpdate L pr s x).r = (huberUpdate L pr t x).r ∧ (huberUpdate L pr s x).nBurn = (huberUpdate L pr t x).nBurn ∧
    ((huberUpdate L pr s x).nSamples = (huberUpdate L pr t x).nSamples ∨
      (huberUpdate L pr s x).nBurn ≤ (huberUpdate L pr s x).nSamples ∧ (huberUpdate L pr s x).nBurn ≤ (huberUpdate L pr t x).nSamples) := by
  obtain ⟨⟨n, m, c⟩, r, b⟩ := s
  obtain ⟨⟨n', m', c'⟩, r', b'⟩ := t
  obtain ⟨h1, h2, h3, h4, h5⟩ := h
  simp only at h1 h2 h3 h4 h5
  subst h1; subst h2; subst h3; subst h4
  rcases h5 with rfl | ⟨h5, h6⟩
  · exact ⟨rfl, rfl, rfl, rfl, Or.inl rfl⟩
  · have e : ∀ k, b ≤ k → huberUpdate L pr (⟨⟨k, m, c⟩, r, b⟩ : EwaState ι ℝ) x =
        ⟨⟨k + 1, fun i => m i + r * (huberWeight L pr.c c (fun i => x i - m i) * (x i - m i)),
          (1 - r) • c + r • outer (fun i => huberWeight L pr.c c (fun i => x i - m i) * (x i - m i)) (fun i => huberWeight L pr.c c (fun i => x i - m i) * (x i - m i))⟩, r, b⟩ :=
      fun k hk => by unfold huberUpdate; rw [if_neg (not_lt.2 hk)]
    rw [e n h5, e n' h6]
    exact ⟨rfl, rfl, rfl, rfl, Or.inr ⟨Nat.le_succ_of_le h5, Nat.le_succ_of_le h6⟩⟩

theorem huberFold_fields (L : Lapack) (pr : HuberParam) (xs : List (ι → ℝ)) :
    (huberFold L pr xs).nSamples = xs.length ∧ (huberFold L pr xs).r = pr.r ∧ (huberFold L pr xs).nBurn = ewaBurnN pr.r := by
  induction xs using List.reverseRecOn with
  | nil => exact ⟨rfl, rfl, rfl⟩
  | append_singleton xs x ih =>
    obtain ⟨h1, h2, h3⟩ := ih
    rw [huberFold_snoc]
    unfold huberUpdate
    split
    · exact ⟨by show _ + 1 = _; rw [h1]; simp, h2, h3⟩
    · exact ⟨by show _ + 1 = _; rw [h1]; simp, h2, h3⟩

/-- C127: so does HuberCovariance. -/
theorem C127_shows_huber (L : Lapack) (pr : HuberParam) : ShowsAll (huberCls L ι) pr (ewaBurnN pr.r) := by
  refine showsAll_of_sim (huber_lawful L ι) pr _
    (fun (s t : EwaState ι ℝ) => s.mean = t.mean ∧ s.cov = t.cov ∧ s.r = t.r ∧ s.nBurn = t.nBurn ∧
      (s.nSamples = t.nSamples ∨ s.nBurn ≤ s.nSamples ∧ s.nBurn ≤ t.nSamples)) ?_ (fun s t x h => huber_step L pr s t x h) (fun s t h => h.1) (fun s t h => h.2.1)
  intro xs ys hx hy hn h1 h2
  change toSymmetric (huberFold L pr xs).cov = toSymmetric (huberFold L pr ys).cov at h2
  rw [toSymmetric_of_symm (huberFold_symm L pr _), toSymmetric_of_symm (huberFold_symm L pr _)] at h2
  obtain ⟨a1, a2, a3⟩ := huberFold_fields L pr xs
  obtain ⟨b1, b2, b3⟩ := huberFold_fields L pr ys
  refine ⟨h1, h2, a2.trans b2.symm, a3.trans b3.symm, ?_⟩
  change (huberFold L pr xs).nSamples = (huberFold L pr ys).nSamples ∨ (huberFold L pr xs).nBurn ≤ (huberFold L pr xs).nSamples ∧
    (huberFold L pr xs).nBurn ≤ (huberFold L pr ys).nSamples
  rw [a1, b1, a3]; exact hn

/-- C127: so does DiagonalCovariance. -/
theorem C127_shows_diagonal (p : RParam ℝ) : ShowsAll (diagonalCls ι ℝ) p (ewaBurnN p.r) := by
  refine showsAll_of_sim (diagonal_lawful ι ℝ) p _
    (fun (s t : DiagState ι ℝ) => s.mean = t.mean ∧ s.var = t.var ∧ s.r = t.r ∧ s.nBurn = t.nBurn ∧
      (s.nSamples = t.nSamples ∨ s.nBurn ≤ s.nSamples ∧ s.nBurn ≤ t.nSamples)) ?_ ?_ (fun s t h => h.1) ?_
  · intro xs ys hx hy hn h1 h2
    change toSymmetric (diagonal (diagFold p.r xs).var) = toSymmetric (diagonal (diagFold p.r ys).var) at h2
    have hv : (diagFold p.r xs).var = (diagFold p.r ys).var := by
      funext i
      have := congrFun (congrFun h2 i) i
      simpa [toSymmetric] using this
    obtain ⟨a1, a2, a3, _⟩ := diagFold_fields p.r xs
    obtain ⟨b1, b2, b3, _⟩ := diagFold_fields p.r ys
    refine ⟨h1, hv, a2.trans b2.symm, a3.trans b3.symm, ?_⟩
    change (diagFold p.r xs).nSamples = (diagFold p.r ys).nSamples ∨ (diagFold p.r xs).nBurn ≤ (diagFold p.r xs).nSamples ∧
      (diagFold p.r xs).nBurn ≤ (diagFold p.r ys).nSamples
    rw [a1, b1, a3]; exact hn
  · rintro (s : DiagState ι ℝ) (t : DiagState ι ℝ) x ⟨h1, h2, h3, h4, h5⟩
    obtain ⟨n, m, v, r, b⟩ := s
    obtain ⟨n', m', v', r', b'⟩ := t
    simp only at h1 h2 h3 h4 h5
    subst h1; subst h2; subst h3; subst h4
    rcases h5 with rfl | ⟨h5, h6⟩
    · exact ⟨rfl, rfl, rfl, rfl, Or.inl rfl⟩
    · have e : ∀ k, b ≤ k → diagUpdate (⟨k, m, v, r, b⟩ : DiagState ι ℝ) x =
          ⟨k + 1, fun i => (1 - r) * m i + r * x i, fun i => (1 - r) * v i + r * ((x i - m i) * (x i - m i)), r, b⟩ := fun k hk => by
        unfold diagUpdate
        simp only []
        rw [if_neg (by omega)]
      change (diagUpdate (⟨n, m, v, r, b⟩ : DiagState ι ℝ) x).mean = (diagUpdate (⟨n', m, v, r, b⟩ : DiagState ι ℝ) x).mean ∧
        (diagUpdate (⟨n, m, v, r, b⟩ : DiagState ι ℝ) x).var = (diagUpdate (⟨n', m, v, r, b⟩ : DiagState ι ℝ) x).var ∧
        (diagUpdate (⟨n, m, v, r, b⟩ : DiagState ι ℝ) x).r = (diagUpdate (⟨n', m, v, r, b⟩ : DiagState ι ℝ) x).r ∧
        (diagUpdate (⟨n, m, v, r, b⟩ : DiagState ι ℝ) x).nBurn = (diagUpdate (⟨n', m, v, r, b⟩ : DiagState ι ℝ) x).nBurn ∧
        ((diagUpdate (⟨n, m, v, r, b⟩ : DiagState ι ℝ) x).nSamples = (diagUpdate (⟨n', m, v, r, b⟩ : DiagState ι ℝ) x).nSamples ∨
          (diagUpdate (⟨n, m, v, r, b⟩ : DiagState ι ℝ) x).nBurn ≤ (diagUpdate (⟨n, m, v, r, b⟩ : DiagState ι ℝ) x).nSamples ∧
          (diagUpdate (⟨n, m, v, r, b⟩ : DiagState ι ℝ) x).nBurn ≤ (diagUpdate (⟨n', m, v, r, b⟩ : DiagState ι ℝ) x).nSamples)
      rw [e n h5, e n' h6]
      exact ⟨rfl, rfl, rfl, rfl, Or.inr ⟨Nat.le_succ_of_le h5, Nat.le_succ_of_le h6⟩⟩
  · rintro (s : DiagState ι ℝ) (t : DiagState ι ℝ) h
    show diagonal s.var = diagonal t.var
    rw [h.2.1]

/-- Streams with the same number of rows, mean and covariance still agree after the same further rows. -/
theorem shows_batch {xs ys : List (ι → ℝ)} (nA : xs ≠ []) (nB : ys ≠ []) (zs : List (ι → ℝ)) (hl : xs.length = ys.length)
    (em : meanOf xs = meanOf ys) (ec : covOf xs = covOf ys) :
    meanOf (xs ++ zs) = meanOf (ys ++ zs) ∧ covOf (xs ++ zs) = covOf (ys ++ zs) := by
  have m1 : meanOf (xs ++ zs) = meanOf (ys ++ zs) := by
    funext i
    have : (xs.map fun x => x i).sum = (ys.map fun x => x i).sum := by
      rw [sum_eq_mean nA i, sum_eq_mean nB i, hl, em]
    simp only [meanOf, List.map_append, List.sum_append, List.length_append, hl, this]
  refine ⟨m1, ?_⟩
  ext i j
  rw [covOf_moments (by simp [nA]), covOf_moments (by simp [nB]), m1]
  simp only [List.map_append, List.sum_append, List.length_append, hl]
  rw [moment_eq_cov nA, moment_eq_cov nB, hl, em, ec]

/-- C127: EmpiricalCovariance shows all of its state together with `n_samples_`. -/
theorem C127_shows_empirical (d : Bool) (A B A' B' : List (Call ι ℝ)) (zs : List (ι → ℝ)) (m : ι → ℝ) (c : Matrix ι ι ℝ)
    (hn : ((new (empiricalCls ι ℝ) d).run A).nSamples = ((new (empiricalCls ι ℝ) d).run B).nSamples)
    (a1 : ((new (empiricalCls ι ℝ) d).run A).location = .ok m) (a2 : ((new (empiricalCls ι ℝ) d).run A).covariance = .ok c)
    (b1 : ((new (empiricalCls ι ℝ) d).run B).location = .ok m) (b2 : ((new (empiricalCls ι ℝ) d).run B).covariance = .ok c)
    (hA : used d A' = used d A ++ zs) (hB : used d B' = used d B ++ zs) :
    ((new (empiricalCls ι ℝ) d).run A').location = ((new (empiricalCls ι ℝ) d).run B').location ∧
    ((new (empiricalCls ι ℝ) d).run A').covariance = ((new (empiricalCls ι ℝ) d).run B').covariance := by
  have nA := (run_location_inv (empirical_lawful ι ℝ) d A m a1).1
  have nB := (run_location_inv (empirical_lawful ι ℝ) d B m b1).1
  change used d A ≠ [] at nA
  change used d B ≠ [] at nB
  by_cases hz : zs = []
  · subst hz
    rw [List.append_nil] at hA hB
    obtain ⟨x1, x2, _⟩ := C15_batch d A nA
    obtain ⟨y1, y2, _⟩ := C15_batch d B nB
    obtain ⟨x1', x2', _⟩ := C15_batch d A' (by rw [hA]; exact nA)
    obtain ⟨y1', y2', _⟩ := C15_batch d B' (by rw [hB]; exact nB)
    rw [x1', x2', y1', y2', hA, hB, ← x1, ← x2, ← y1, ← y2, a1, a2, b1, b2]
    exact ⟨rfl, rfl⟩
  · have hu : used d [Call.fit (.batch zs)] = effective d zs := rfl
    obtain ⟨x1, x2, x3⟩ := C15_batch false [Call.fit (.batch zs)] (by show zs ≠ []; exact hz)
    obtain ⟨u1, u2, u3⟩ := C15_batch d A nA
    obtain ⟨v1, v2, v3⟩ := C15_batch d B nB
    have hl : (used d A).length = (used d B).length := by rw [← u3, ← v3, hn]
    obtain ⟨w1, w2, _⟩ := C15_batch d A' (by rw [hA]; simp [nA])
    obtain ⟨z1, z2, _⟩ := C15_batch d B' (by rw [hB]; simp [nB])
    have em : meanOf (used d A) = meanOf (used d B) := Except.ok.inj (u1.symm.trans (a1.trans (b1.symm.trans v1)))
    have ec : covOf (used d A) = covOf (used d B) := Except.ok.inj (u2.symm.trans (a2.trans (b2.symm.trans v2)))
    rw [w1, w2, z1, z2, hA, hB]
    obtain ⟨q1, q2⟩ := shows_batch nA nB zs hl em ec
    rw [q1, q2]
    exact ⟨rfl, rfl⟩

/-- C127: without `n_samples_` it does not, however long it has run: histories of any length that show the same and then differ. -/
theorem C127_hides_empirical (b : ℕ) : ¬ ShowsAll (empiricalCls (Fin 1) ℝ) false b := by
  intro h
  have hu : ∀ xs : List (Fin 1 → ℝ), used false [Call.fit (.batch xs)] = xs := fun xs => rfl
  have hmean : ∀ n : ℕ, meanOf (List.replicate n (0 : Fin 1 → ℝ)) = 0 := fun n => by funext i; simp [meanOf]
  have hcov : ∀ n : ℕ, covOf (List.replicate n (0 : Fin 1 → ℝ)) = 0 := fun n => by ext i j; simp [covOf, hmean]
  have hA : ∀ n : ℕ, 1 ≤ n → ((new (empiricalCls (Fin 1) ℝ) false).run [Call.fit (.batch (List.replicate n 0))]).location = .ok 0 ∧
      ((new (empiricalCls (Fin 1) ℝ) false).run [Call.fit (.batch (List.replicate n 0))]).covariance = .ok 0 := by
    intro n hn
    obtain ⟨e1, e2, _⟩ := C15_batch false [Call.fit (.batch (List.replicate n (0 : Fin 1 → ℝ)))] (by rw [hu]; simp; omega)
    rw [e1, e2, hu, hmean, hcov]; exact ⟨rfl, rfl⟩
  have hB : ∀ n : ℕ, ((new (empiricalCls (Fin 1) ℝ) false).run [Call.fit (.batch (List.replicate n 0 ++ [1]))]).location = .ok fun _ => 1 / ((n : ℝ) + 1) := by
    intro n
    obtain ⟨e1, _, _⟩ := C15_batch false [Call.fit (.batch (List.replicate n (0 : Fin 1 → ℝ) ++ [1]))] (by rw [hu]; simp)
    rw [e1, hu]
    congr 1
    funext i
    simp [meanOf]
  have := (h [Call.fit (.batch (List.replicate (b + 1) 0))] [Call.fit (.batch (List.replicate (b + 2) 0))]
    [Call.fit (.batch (List.replicate (b + 1) 0 ++ [1]))] [Call.fit (.batch (List.replicate (b + 2) 0 ++ [1]))] [1] 0 0
    (Or.inr ⟨by show b ≤ (used false _).length; rw [hu]; simp, by show b ≤ (used false _).length; rw [hu]; simp⟩)
    (hA _ (by omega)).1 (hA _ (by omega)).2 (hA _ (by omega)).1 (hA _ (by omega)).2 rfl rfl).1
  rw [hB, hB] at this
  have h2 := congrFun (Except.ok.inj this) 0
  change (1:ℝ) / (((b + 1 : ℕ) : ℝ) + 1) = 1 / (((b + 2 : ℕ) : ℝ) + 1) at h2
  push_cast at h2
  have hb : (0 : ℝ) ≤ b := Nat.cast_nonneg _
  rw [div_eq_div_iff (by positivity) (by positivity)] at h2
  linarith

/-! Non-vacuity -/

/-- Two streams read in two halves by two estimators, and together by a third. -/
example : ∃ a b S T, ((new (empiricalCls (Fin 1) ℝ) false).run [.fit (.batch [![1], ![3]])]).location = .ok a ∧
    ((new (empiricalCls (Fin 1) ℝ) false).run [.fit (.batch [![1], ![3]])]).covariance = .ok S ∧
    ((new (empiricalCls (Fin 1) ℝ) false).run [.partialFit (.row ![5])]).location = .ok b ∧
    ((new (empiricalCls (Fin 1) ℝ) false).run [.partialFit (.row ![5])]).covariance = .ok T ∧
    used false [Call.fit (.batch [![1], ![3]]), .partialFit (.row ![(5 : ℝ)])] = used false [Call.fit (.batch [![1], ![3]])] ++ used false [Call.partialFit (.row ![5])] := by
  obtain ⟨a1, a2, _⟩ := C15_batch false [Call.fit (.batch [![1], ![(3 : ℝ)]])] (by simp [used, effective, rowsSinceFit])
  obtain ⟨b1, b2, _⟩ := C15_batch false [Call.partialFit (.row ![(5 : ℝ)])] (by simp [used, effective, rowsSinceFit, rowsOf])
  exact ⟨_, _, _, _, a1, a2, b1, b2, rfl⟩

/-- Three streams of one, two and one observations. -/
example : ∃ (gs : List (List (Fin 1 → ℝ))) (M : List (Fin 1 → ℝ) → Fin 1 → ℝ) (S : List (Fin 1 → ℝ) → Matrix (Fin 1) (Fin 1) ℝ), gs.length = 3 ∧ gs ≠ [] ∧
    ∀ g ∈ gs, ∃ calls, used false calls = g ∧ ((new (empiricalCls (Fin 1) ℝ) false).run calls).location = .ok (M g) ∧
      ((new (empiricalCls (Fin 1) ℝ) false).run calls).covariance = .ok (S g) := by
  refine ⟨[[![1]], [![2], ![5]], [![7]]], meanOf, covOf, rfl, by simp, fun g hg => ⟨[.partialFit (.batch g)], ?_, ?_⟩⟩
  · simp [used, effective, rowsSinceFit, rowsOf]
  · have hu : used false [Call.partialFit (.batch g)] = g := by simp [used, effective, rowsSinceFit, rowsOf]
    have hn : g ≠ [] := by rintro rfl; simp at hg
    have h := C15_batch false [Call.partialFit (.batch g)] (by rw [hu]; exact hn)
    rw [hu] at h
    exact ⟨h.1, h.2.1⟩

end Precise
