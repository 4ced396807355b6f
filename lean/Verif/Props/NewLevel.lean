import Verif.Spec.Level
import Verif.Props.ForgettingMore
import Verif.Props.Location
import Verif.Props.Robust

/-!
# C115: a new level is found
-/

set_option linter.all false

open Matrix Filter Topology

namespace Precise

open Spec Obj

variable {ι : Type} [Fintype ι] [DecidableEq ι]

/-- A sequence that is averaged with a convergent one, with weights bounded below, converges to the same limit. -/
theorem tendsto_of_averaging {u x : ℕ → ℝ} {v t : ℝ} (h0 : 0 < t) (hx : Tendsto x atTop (𝓝 v))
    (h : ∀ᶠ k in atTop, ∃ ρ, t ≤ ρ ∧ ρ ≤ 1 ∧ u (k + 1) = (1 - ρ) * u k + ρ * x k) : Tendsto u atTop (𝓝 v) := by
  by_cases ht : t ≤ 1
  swap
  · obtain ⟨N, hN⟩ := eventually_atTop.1 h
    obtain ⟨ρ, h1, h2, -⟩ := hN N le_rfl
    linarith
  have hw : Tendsto (fun k => |x k - v|) atTop (𝓝 0) := by
    have : Tendsto (fun k => x k - v) atTop (𝓝 0) := by simpa using hx.sub_const v
    simpa using this.abs
  have := tendsto_of_contract (u := fun k => u k - v) (w := fun k => |x k - v|) (q := 1 - t) (by linarith) (by linarith) hw (by
    filter_upwards [h] with k ⟨ρ, h1, h2, e⟩
    have e' : u (k + 1) - v = (1 - ρ) * (u k - v) + ρ * (x k - v) := by rw [e]; ring
    rw [e']
    calc |(1 - ρ) * (u k - v) + ρ * (x k - v)| ≤ |(1 - ρ) * (u k - v)| + |ρ * (x k - v)| := abs_add_le _ _
      _ = (1 - ρ) * |u k - v| + ρ * |x k - v| := by rw [abs_mul, abs_mul, abs_of_nonneg (by linarith : 0 ≤ 1 - ρ), abs_of_nonneg (by linarith : 0 ≤ ρ)]
      _ ≤ (1 - t) * |u k - v| + 1 * |x k - v| := by gcongr
      _ = _ := by ring)
  simpa using this.add_const v

theorem findsLevel_of_fold {C : Cls ι ℝ} (hC : Lawful C) (p : C.Param) {t : ℝ} (h0 : 0 < t)
    (h : ∀ (a : List (ι → ℝ)) (x : ℕ → ι → ℝ), let S := fun k => (a ++ firstRows k x).foldl (C.updateState p) (C.initState p)
      ∀ i, ∀ᶠ k in atTop, ∃ ρ, t ≤ ρ ∧ ρ ≤ 1 ∧ C.toMean p (C.updateState p (S k) (x k)) i = (1 - ρ) * C.toMean p (S k) i + ρ * x k i) : FindsLevel C p := by
  intro a x v hx calls hu m hm i
  have e : ∀ᶠ k in atTop, m k i = C.toMean p ((a ++ firstRows k x).foldl (C.updateState p) (C.initState p)) i := by
    filter_upwards [hm] with k e
    rw [(run_location_inv hC p _ _ e).2, hu]
  refine Tendsto.congr' (EventuallyEq.symm e) (tendsto_of_averaging h0 (hx i) ?_)
  filter_upwards [h a x i] with k hk
  rw [firstRows_succ, ← List.append_assoc, List.foldl_append (l' := [x k])]
  exact hk

/-- C115: EwaCovariance. -/
theorem C115_ewa (p : RParam ℝ) (h0 : 0 < p.r) (h1 : p.r ≤ 1) : FindsLevel (ewaCls ι ℝ) p := by
  refine findsLevel_of_fold (ewa_lawful ι ℝ) p h0 fun a x i => ?_
  filter_upwards [ewa_post p.r a x] with k hk
  refine ⟨p.r, le_rfl, h1, ?_⟩
  have := hk.1 i
  rw [firstRows_succ, ← List.append_assoc, ewaFold_snoc] at this
  exact this

theorem FindsLevel.of_location {C D : Cls ι ℝ} (p : C.Param) (q : D.Param) (hd : D.diff q = C.diff p)
    (h : ∀ calls, ((new D q).run calls).location = ((new C p).run calls).location) (hC : FindsLevel C p) : FindsLevel D q := by
  intro a x v hx calls hu m hm
  exact hC a x v hx calls (fun k => by rw [← hd]; exact hu k) m (hm.mono fun k e => by rw [← h]; exact e)

/-- C115: every class whose location is that of EwaCovariance: DiagonalCovariance, LedoitWolfCovariance, OASCovariance, ShrunkCovariance,
PartialMomentsCovariance, TylerCovariance and GeodesicEwaCovariance. -/
theorem C115_same_location (L : Lapack) (p : RParam ℝ) (delta : ℝ) (target : String) (h0 : 0 < p.r) (h1 : p.r ≤ 1) :
    FindsLevel (diagonalCls ι ℝ) p ∧ FindsLevel (ledoitWolfCls ι ℝ) p ∧ FindsLevel (oasCls ι ℝ) p ∧
    FindsLevel (shrunkCls ι) ⟨p.r, delta, target, p.diff⟩ ∧ FindsLevel (partialMomentsCls L ι) p ∧ FindsLevel (tylerCls L ι) p ∧
    FindsLevel (geodesicCls L ι) p := by
  have hE := C115_ewa (ι := ι) p h0 h1
  refine ⟨?_, ?_, ?_, ?_, ?_, ?_, ?_⟩
  · exact FindsLevel.of_location (C := ewaCls ι ℝ) p (D := diagonalCls ι ℝ) p rfl (fun c => (C22_same_location p c).1) hE
  · exact FindsLevel.of_location (C := ewaCls ι ℝ) p (D := ledoitWolfCls ι ℝ) p rfl (fun c => (C22_same_location p c).2.1) hE
  · exact FindsLevel.of_location (C := ewaCls ι ℝ) p (D := oasCls ι ℝ) p rfl (fun c => (C22_same_location p c).2.2) hE
  · exact FindsLevel.of_location (C := ewaCls ι ℝ) p (D := shrunkCls ι) _ rfl (fun c => (C22_same_location_real L p delta target c).1) hE
  · exact FindsLevel.of_location (C := ewaCls ι ℝ) p (D := partialMomentsCls L ι) p rfl (fun c => (C22_same_location_real L p delta target c).2.1) hE
  · exact FindsLevel.of_location (C := ewaCls ι ℝ) p (D := tylerCls L ι) p rfl (fun c => (C22_same_location_real L p delta target c).2.2.1) hE
  · exact FindsLevel.of_location (C := ewaCls ι ℝ) p (D := geodesicCls L ι) p rfl (fun c => (C22_same_location_real L p delta target c).2.2.2) hE

/-- C115: and BlockCovariance, SchurCovariance, SchurLedoitWolfCovariance, SchurConditionalCovariance. -/
theorem C115_same_location_blocks (L : Lapack) {d : ℕ} (hd : 1 ≤ d) (p : RParam ℝ) (nb : ℤ) (gamma : ℝ) (interp : String) (h0 : 0 < p.r) (h1 : p.r ≤ 1) :
    FindsLevel (blockCls L d) ⟨p.r, nb, p.diff⟩ ∧ FindsLevel (schurCls L d) ⟨p.r, nb, gamma, interp, p.diff⟩ ∧
    FindsLevel (schurLWCls L d) ⟨p.r, nb, p.diff⟩ ∧ FindsLevel (schurCondCls L d) ⟨p.r, nb, p.diff⟩ := by
  have hE := C115_ewa (ι := Fin d) p h0 h1
  have h := C22_same_location_blocks L hd p nb gamma interp
  refine ⟨?_, ?_, ?_, ?_⟩
  · exact FindsLevel.of_location (C := ewaCls (Fin d) ℝ) p (D := blockCls L d) _ rfl (fun c => (h c).1) hE
  · exact FindsLevel.of_location (C := ewaCls (Fin d) ℝ) p (D := schurCls L d) _ rfl (fun c => (h c).2.1) hE
  · exact FindsLevel.of_location (C := ewaCls (Fin d) ℝ) p (D := schurLWCls L d) _ rfl (fun c => (h c).2.2.1) hE
  · exact FindsLevel.of_location (C := ewaCls (Fin d) ℝ) p (D := schurCondCls L d) _ rfl (fun c => (h c).2.2.2) hE

/-- C115: AdaptiveEwaCovariance. -/
theorem C115_adaptive (L : Lapack) (p : AdaParam) (h0 : 0 < p.r) (h1 : 0 < p.maxR) (h2 : p.maxR ≤ 1) : FindsLevel (adaptiveCls L ι) p := by
  refine findsLevel_of_fold (adaptive_lawful L ι) p (lt_min h0 h1) fun a x i => ?_
  filter_upwards [eventually_ge_atTop (ewaBurnN p.r)] with k hk
  obtain ⟨hn, hr, hb, hm⟩ := ada_inv L p (a ++ firstRows k x)
  change ∃ ρ, _ ∧ _ ∧ (adaUpdate L _ (x k)).mean i = _
  simp only [adaptiveCls]
  set s := (a ++ firstRows k x).foldl (adaUpdate L) { toEwaState := ewaInit p.r, maxR := p.maxR, sbar := 1 } with hs
  unfold adaUpdate
  rw [if_neg (by rw [hn, hb, List.length_append, firstRows_length]; omega)]
  refine ⟨adaRate L s (fun i => x k i - s.mean i), ?_, ?_, rfl⟩
  · unfold adaRate; rw [hr, hm]; exact min_le_min_right _ (le_max_right _ _)
  · unfold adaRate; rw [hm]; exact (min_le_right _ _).trans h2

/-- C115: DCCCovariance, at the volatility rate. -/
theorem C115_dcc (p : DCCParam) (v0 : 0 < p.volR.getD p.r) (v1 : p.volR.getD p.r ≤ 1) : FindsLevel (dccCls ι) p := by
  refine findsLevel_of_fold (dcc_lawful ι) p v0 fun a x i => ?_
  filter_upwards [eventually_ge_atTop (ewaBurnN (min p.r (p.volR.getD p.r)))] with k hk
  obtain ⟨hn, hr, hv, hb⟩ := dcc_inv p (a ++ firstRows k x)
  change ∃ ρ, _ ∧ _ ∧ (dccUpdate _ (x k)).mean i = _
  simp only [dccCls]
  set s := (a ++ firstRows k x).foldl dccUpdate (dccInit p) with hs
  unfold dccUpdate
  simp only []
  rw [if_neg (by rw [hn, hb, List.length_append, firstRows_length]; omega)]
  refine ⟨p.volR.getD p.r, le_rfl, v1, ?_⟩
  simp only [hv]

/-- C115: FactorCovariance. -/
theorem C115_factor (p : FactorParam) (h0 : 0 < p.r) (h1 : p.r ≤ 1) : FindsLevel (factorCls ι) p := by
  refine findsLevel_of_fold (factor_lawful ι) p h0 fun a x i => ?_
  filter_upwards [eventually_ge_atTop (min p.k (Fintype.card ι) + 1)] with k hk
  obtain ⟨hn, hr, hv, hb⟩ := factor_inv p (a ++ firstRows k x)
  change ∃ ρ, _ ∧ _ ∧ (factorUpdate _ (x k)).mean i = _
  simp only [factorCls]
  set s := (a ++ firstRows k x).foldl factorUpdate (factorInit p) with hs
  unfold factorUpdate
  simp only []
  rw [if_neg (by rw [hn, hb, List.length_append, firstRows_length]; omega)]
  refine ⟨p.r, le_rfl, h1, ?_⟩
  simp only [hr]

/-- C115: EmpiricalCovariance. -/
theorem C115_empirical (d : Bool) : FindsLevel (empiricalCls ι ℝ) d := by
  intro a x v hx calls hu m hm i
  have hxy : ∀ i, Merge (fun k => x k i) (fun _ => v i) := fun i => by
    have hl : Tendsto (fun k => x k i - v i) atTop (𝓝 0) := by simpa using (hx i).sub_const (v i)
    refine ⟨⟨|v i| + 1, ?_⟩, hl⟩
    have := hl.abs.eventually (gt_mem_nhds (show |(0:ℝ)| < 1 by simp))
    filter_upwards [this] with k hk
    have := abs_add_le (x k i - v i) (v i)
    rw [sub_add_cancel] at this
    exact ⟨by linarith, by linarith [abs_nonneg (v i)]⟩
  have hu : ∀ k, used d (calls k) = a ++ firstRows k x := hu
  have hs : ∀ k, meanOf (a ++ firstRows k x) i = ((a.map fun z => z i).sum + ∑ t ∈ Finset.range k, x t i) / ((a.length + k : ℕ) : ℝ) := by
    intro k
    rw [meanOf, List.map_append, List.sum_append, List.length_append, firstRows_length, firstRows, List.map_map]
    rfl
  have hce := ((hxy i).cesaro ((a.map fun z => z i).sum) 0 a.length 0).lim
  have e : ∀ᶠ k in atTop, m k i = ((a.map fun z => z i).sum + ∑ t ∈ Finset.range k, x t i) / ((a.length + k : ℕ) : ℝ)
      - (0 + ∑ t ∈ Finset.range k, v i) / ((0 + k : ℕ) : ℝ) + v i := by
    filter_upwards [hm, eventually_gt_atTop 0] with k e hk
    have := (C15_batch d (calls k) (by
      rw [hu]; intro h0
      have := congrArg List.length h0
      rw [List.length_append, firstRows_length] at this
      simp only [List.length_nil] at this; omega)).1
    rw [e, hu] at this
    rw [Except.ok.inj this, hs]
    have hk' : (k : ℝ) ≠ 0 := by exact_mod_cast hk.ne'
    simp [hk']
  refine Tendsto.congr' (EventuallyEq.symm e) ?_
  simpa using hce.add_const (v i)

/-! ## ConditionalCovariance -/

/-- C115: ConditionalCovariance, with a volatility estimator that finds a level and does not difference. -/
theorem C115_conditional {V : Cls (Fin 1) ℝ} {Sk : Type} {C : Cls ι ℝ} (hV : Lawful V) (o : Obj V) (corr : Obj C) (hd : V.diff o.params = false)
    (fv : FindsLevel V o.params) (a : List (ι → ℝ)) (x : ℕ → ι → ℝ) (v : ι → ℝ) (hx : ∀ i, Tendsto (fun k => x k i) atTop (𝓝 (v i)))
    (calls : ℕ → List (Call ι ℝ)) (hu : ∀ k, rowsSinceFit (calls k) [] = a ++ firstRows k x) (m : ℕ → ι → ℝ)
    (hm : ∀ᶠ k in atTop, ((CondObj.new (.est o : VolArg V Sk) corr).run (calls k)).location = .ok (m k)) (i : ι) :
    Tendsto (fun k => m k i) atTop (𝓝 (v i)) := by
  set cs : List (ι → ℝ) → List (Call (Fin 1) ℝ) := fun xs => (xs.map fun x => x i).map fun y => .partialFit (.row fun _ => y) with hcs
  have hr : ∀ k : ℕ, used (V.diff o.params) (cs (a ++ firstRows k x)) = (a.map fun x (_ : Fin 1) => x i) ++ firstRows k fun k (_ : Fin 1) => x k i := by
    intro k
    have := rowsSinceFit_rows ((a ++ firstRows k x).map fun x (_ : Fin 1) => x i) []
    simp only [List.map_map, List.nil_append] at this
    rw [hd]
    simp only [used, effective, hcs, List.map_map]
    refine this.trans ?_
    rw [List.map_append, firstRows_map]
  have comp := fun k => C40_composition (.est o : VolArg V Sk) (by simp) corr (calls k)
  simp only [hu] at comp
  have hne : ∀ k : ℕ, 1 ≤ k → a ++ firstRows k x ≠ [] := fun k hk h => by
    have := congrArg List.length h; rw [List.length_append, firstRows_length, List.length_nil] at this; omega
  have hne' : ∀ k : ℕ, 1 ≤ k → used (V.diff o.params) (cs (a ++ firstRows k x)) ≠ [] := fun k hk h => by
    rw [hr] at h
    have := congrArg List.length h; rw [List.length_append, firstRows_length, List.length_nil] at this; omega
  have em : ∀ᶠ k in atTop, ((new V o.params).run (cs (a ++ firstRows k x))).location =
      .ok fun _ => forecastMean (.est o : VolArg V Sk) ((a ++ firstRows k x).map fun x => x i) := by
    filter_upwards [eventually_ge_atTop 1] with k hk
    have hl := run_location hV o.params _ (hne' k hk)
    unfold forecastMean volAfter
    simp only [hcs] at hl ⊢
    rw [hl]
    refine congrArg _ (funext fun j => ?_)
    rw [Subsingleton.elim j 0]
  have := fv _ (fun k (_ : Fin 1) => x k i) (fun _ => v i) (fun _ => hx i) (fun k => cs (a ++ firstRows k x)) hr _ em 0
  refine Tendsto.congr' ?_ this
  filter_upwards [hm, eventually_ge_atTop 1] with k e hk
  have := ((comp k).2.2 (hne k hk)).1
  rw [e] at this
  rw [Except.ok.inj this]

/-! ## HuberCovariance -/

section Huber
variable (L : Lapack)

/-- the inverse form is the least Loewner multiplier -/
theorem quad_inv_le {C : Matrix ι ι ℝ} (hC : PD C) (u : ι → ℝ) {t : ℝ} (ht : 0 ≤ t) (h : ∀ x, (u ⬝ᵥ x) ^ 2 ≤ t * quad C x) : quad C⁻¹ u ≤ t := by
  have hdet : IsUnit C.det := (hC.det_pos.ne').isUnit
  have h1 := h (C⁻¹ *ᵥ u)
  have e1 : quad C (C⁻¹ *ᵥ u) = quad C⁻¹ u := by
    unfold quad
    rw [mulVec_mulVec, mul_nonsing_inv _ hdet, one_mulVec, dotProduct_comm]
  rw [e1] at h1
  change quad C⁻¹ u ^ 2 ≤ t * quad C⁻¹ u at h1
  rcases (hC.inv.psd.2 u).eq_or_lt with h0 | h0
  · rw [← h0]; exact ht
  · nlinarith

variable {calls : ℕ → List (Call ι ℝ)} {pr : HuberParam} {a : List (ι → ℝ)} {x : ℕ → ι → ℝ} {C : ℕ → Matrix ι ι ℝ} {m : ℕ → ι → ℝ}

/-- Along a stream that starts with a positive-definite covariance the covariance stays positive definite. -/
theorem huber_pd (h0 : 0 < pr.r) (h1 : pr.r < 1) (hu : ∀ k, used pr.diff (calls k) = a ++ firstRows k x) (hb : ewaBurnN pr.r ≤ a.length)
    (hC : ∀ k, ((new (huberCls L ι) pr).run (calls k)).covariance = .ok (C k)) (hm : ∀ k, ((new (huberCls L ι) pr).run (calls k)).location = .ok (m k))
    (hpd : PD (C 0)) (k : ℕ) : PD (C k) := by
  induction k with
  | zero => exact hpd
  | succ k ih =>
    have h := (C34_bounded_influence L pr h0.le (calls k) (calls (k + 1)) (x k) (by rw [hu, hu, firstRows_succ, List.append_assoc])
      (by rw [hu, List.length_append]; omega) _ _ _ _ ih (hC k) (hm k) (hC (k + 1)) (hm (k + 1))).1
    have hs : Symm (C (k + 1)) := (C34_psd L pr h0.le h1.le _ _ (hC (k + 1))).1
    refine ⟨hs, fun z hz => lt_of_lt_of_le ?_ (h z)⟩
    rw [quad_smul]
    exact mul_pos (by linarith) (ih.2 z hz)

/-- C115: HuberCovariance finds a new level `v` when `c² p ≥ 1` (`c = 2.5` by default): it needs at most `N` observations, where `N` is the
Mahalanobis distance of the new level in units of `r c √p`, before none is down-weighted any more, and from then on the distance of
`location_` to `v` shrinks by the factor `1 - r` per observation. -/
theorem C115_huber (h0 : 0 < pr.r) (h1 : pr.r < 1) (hT : 1 ≤ pr.c ^ 2 * (Fintype.card ι : ℝ)) (v : ι → ℝ)
    (hu : ∀ k, used pr.diff (calls k) = a ++ List.replicate k v) (hb : ewaBurnN pr.r ≤ a.length)
    (hC : ∀ k, ((new (huberCls L ι) pr).run (calls k)).covariance = .ok (C k)) (hm : ∀ k, ((new (huberCls L ι) pr).run (calls k)).location = .ok (m k))
    (hpd : PD (C 0)) (N : ℕ) (hN : Real.sqrt (quad (C 0)⁻¹ (v - m 0)) ≤ N * (pr.r * Real.sqrt (pr.c ^ 2 * (Fintype.card ι : ℝ)))) :
    (∀ k i, |v i - m (k + 1) i| ≤ |v i - m k i|) ∧ (∀ k, N ≤ k → ∀ i, v i - m (k + 1) i = (1 - pr.r) * (v i - m k i)) ∧
    (∀ i, Tendsto (fun k => m k i) atTop (𝓝 (v i))) := by
  have hrep : ∀ k, firstRows k (fun _ => v) = List.replicate k v := fun k => List.eq_replicate_iff.2 ⟨firstRows_length _ _, fun b hb => by
    obtain ⟨t, -, rfl⟩ := List.mem_map.1 hb; rfl⟩
  have hu' : ∀ k, used pr.diff (calls k) = a ++ firstRows k (fun _ => v) := fun k => by rw [hu, hrep]
  have pd := huber_pd L h0 h1 hu' hb hC hm hpd
  set T := pr.c ^ 2 * (Fintype.card ι : ℝ) with hTd
  have hT0 : 0 < T := by linarith
  -- one step
  have step : ∀ k, ∃ w, 0 ≤ w ∧ w ≤ 1 ∧ (v - m (k + 1) = (1 - pr.r * w) • (v - m k)) ∧
      (quad (C k)⁻¹ (v - m k) ≤ T → w = 1 ∧ quad (C (k + 1))⁻¹ (v - m (k + 1)) ≤ T) ∧
      (T < quad (C k)⁻¹ (v - m k) → Real.sqrt (quad (C (k + 1))⁻¹ (v - m (k + 1))) ≤ Real.sqrt (quad (C k)⁻¹ (v - m k)) - pr.r * Real.sqrt T) := by
    intro k
    obtain ⟨w, w0, w1, k1, k2, em, eC⟩ := C34_update L pr (calls k) (calls (k + 1)) v (by rw [hu', hu', firstRows_succ, List.append_assoc])
      (by rw [hu, List.length_append]; omega) _ _ _ _ (pd k) (hC k) (hm k) (hC (k + 1)) (hm (k + 1))
    have hd : v - m (k + 1) = (1 - pr.r * w) • (v - m k) := by
      rw [em]; ext i; simp only [Pi.sub_apply, Pi.add_apply, Pi.smul_apply, smul_eq_mul]; ring
    refine ⟨w, w0, w1, hd, fun h => ⟨k1 h, ?_⟩, fun h => ?_⟩
    · have hw := k1 h
      refine quad_inv_le (pd (k + 1)) _ hT0.le fun z => ?_
      rw [hd, hw, eC, hw, quad_add, quad_smul, quad_smul, quad_outer, smul_dotProduct, smul_eq_mul]
      have h1' := outer_le (pd k) (v - m k) z
      have h2 : 0 ≤ quad (C k) z := (pd k).psd.2 z
      have h3 : ((v - m k) ⬝ᵥ z) ^ 2 ≤ T * quad (C k) z := h1'.trans (mul_le_mul_of_nonneg_right h h2)
      set d := (v - m k) ⬝ᵥ z
      have h4 : ((1 - pr.r * 1) * d) ^ 2 ≤ (1 - pr.r) * (T * quad (C k) z) := by
        have : (1 - pr.r) * ((1 - pr.r) * d ^ 2) ≤ (1 - pr.r) * (1 * (T * quad (C k) z)) := by
          refine mul_le_mul_of_nonneg_left ?_ (by linarith)
          exact mul_le_mul (by linarith) h3 (sq_nonneg _) zero_le_one
        nlinarith
      have h5 : 0 ≤ T * (pr.r * 1 ^ 2 * (d * d)) := by have := mul_self_nonneg d; positivity
      nlinarith
    · have hw2 := k2 h
      set q := quad (C k)⁻¹ (v - m k) with hq
      have hq0 : 0 < q := hT0.trans h
      have hsq : Real.sqrt q ^ 2 = q := Real.sq_sqrt hq0.le
      have hwq : w * Real.sqrt q = Real.sqrt T := by
        rw [show T = w ^ 2 * q from hw2.symm, Real.sqrt_mul (sq_nonneg w), Real.sqrt_sq w0]
      have h1w : 0 ≤ 1 - pr.r * w := by nlinarith
      have key : quad (C (k + 1))⁻¹ (v - m (k + 1)) ≤ (1 - pr.r * w) ^ 2 * q := by
        refine quad_inv_le (pd (k + 1)) _ (by positivity) fun z => ?_
        rw [hd, eC, quad_add, quad_smul, quad_smul, quad_outer, smul_dotProduct, smul_eq_mul]
        have h1' := outer_le (pd k) (v - m k) z
        rw [← hq] at h1'
        set d := (v - m k) ⬝ᵥ z
        -- q ((1 - r) C + r w² δδᵀ) ⪰ (1 - r + r T) δδᵀ ⪰ δδᵀ
        have h2 : d ^ 2 ≤ q * ((1 - pr.r) * quad (C k) z + pr.r * w ^ 2 * (d * d)) := by
          have e : q * ((1 - pr.r) * quad (C k) z + pr.r * w ^ 2 * (d * d)) = (1 - pr.r) * (q * quad (C k) z) + pr.r * (w ^ 2 * q) * d ^ 2 := by ring
          rw [e, hw2]
          have h3 := mul_le_mul_of_nonneg_left h1' (show 0 ≤ 1 - pr.r by linarith)
          have h4 : pr.r * 1 * d ^ 2 ≤ pr.r * T * d ^ 2 := by gcongr
          linarith
        calc ((1 - pr.r * w) * d) ^ 2 = (1 - pr.r * w) ^ 2 * d ^ 2 := by ring
          _ ≤ (1 - pr.r * w) ^ 2 * (q * ((1 - pr.r) * quad (C k) z + pr.r * w ^ 2 * (d * d))) := by gcongr
          _ = _ := by ring
      calc Real.sqrt (quad (C (k + 1))⁻¹ (v - m (k + 1))) ≤ Real.sqrt ((1 - pr.r * w) ^ 2 * q) := Real.sqrt_le_sqrt key
        _ = (1 - pr.r * w) * Real.sqrt q := by rw [Real.sqrt_mul (sq_nonneg _), Real.sqrt_sq h1w]
        _ = Real.sqrt q - pr.r * Real.sqrt T := by rw [← hwq]; ring
  have hsT : 0 < Real.sqrt T := Real.sqrt_pos.2 hT0
  have dich : ∀ k : ℕ, quad (C k)⁻¹ (v - m k) ≤ T ∨ Real.sqrt (quad (C k)⁻¹ (v - m k)) ≤ Real.sqrt (quad (C 0)⁻¹ (v - m 0)) - k * (pr.r * Real.sqrt T) := by
    intro k
    induction k with
    | zero => right; simp
    | succ k ih =>
      obtain ⟨w, -, -, -, s1, s2⟩ := step k
      rcases le_or_gt (quad (C k)⁻¹ (v - m k)) T with h | h
      · exact .inl (s1 h).2
      · rcases ih with h' | h'
        · exact absurd h' (not_le.2 h)
        · right; push_cast; linarith [s2 h]
  have late : ∀ k, N ≤ k → quad (C k)⁻¹ (v - m k) ≤ T := by
    intro k hk
    rcases dich k with h | h
    · exact h
    · have : Real.sqrt (quad (C k)⁻¹ (v - m k)) ≤ 0 := by
        have : (N : ℝ) * (pr.r * Real.sqrt T) ≤ k * (pr.r * Real.sqrt T) := by gcongr
        linarith
      have := Real.sqrt_eq_zero'.1 (le_antisymm this (Real.sqrt_nonneg _))
      linarith
  have hlate : ∀ k, N ≤ k → ∀ i, v i - m (k + 1) i = (1 - pr.r) * (v i - m k i) := by
    intro k hk i
    obtain ⟨w, -, -, hd, s1, -⟩ := step k
    have := congrFun hd i
    rw [(s1 (late k hk)).1, mul_one] at this
    exact this
  refine ⟨fun k i => ?_, hlate, fun i => ?_⟩
  · obtain ⟨w, w0, w1, hd, -⟩ := step k
    have := congrFun hd i
    simp only [Pi.sub_apply, Pi.smul_apply, smul_eq_mul] at this
    rw [this, abs_mul]
    have h2 : |1 - pr.r * w| ≤ 1 := abs_le.2 ⟨by nlinarith, by nlinarith⟩
    exact mul_le_of_le_one_left (abs_nonneg _) h2
  · refine tendsto_of_averaging (x := fun _ => v i) h0 tendsto_const_nhds ?_
    filter_upwards [eventually_ge_atTop N] with k hk
    exact ⟨pr.r, le_rfl, h1.le, by linarith [hlate k hk i]⟩

/-- C115 (finding): with `c² p < 1` HuberCovariance does not. Whatever the stream, `covariance_` shrinks by the factor `1 - r + r c² p < 1` per
observation, and `location_` never leaves a fixed neighbourhood of where it was after the burn-in. -/
theorem C115_huber_freezes (h0 : 0 < pr.r) (h1 : pr.r < 1) (hc : 0 ≤ pr.c) (hT : pr.c ^ 2 * (Fintype.card ι : ℝ) < 1)
    (hu : ∀ k, used pr.diff (calls k) = a ++ firstRows k x) (hb : ewaBurnN pr.r ≤ a.length)
    (hC : ∀ k, ((new (huberCls L ι) pr).run (calls k)).covariance = .ok (C k)) (hm : ∀ k, ((new (huberCls L ι) pr).run (calls k)).location = .ok (m k))
    (hpd : PD (C 0)) (k : ℕ) :
    Loewner (C k) ((1 - pr.r + pr.r * pr.c ^ 2 * (Fintype.card ι : ℝ)) ^ k • C 0) ∧
    ∀ i, |m k i - m 0 i| ≤ pr.r * Real.sqrt (pr.c ^ 2 * (Fintype.card ι : ℝ)) * Real.sqrt (C 0 i i) /
      (1 - Real.sqrt (1 - pr.r + pr.r * pr.c ^ 2 * (Fintype.card ι : ℝ))) := by
  have pd := huber_pd L h0 h1 hu hb hC hm hpd
  set T := pr.c ^ 2 * (Fintype.card ι : ℝ) with hTd
  have hT0 : 0 ≤ T := by positivity
  rw [mul_assoc pr.r, ← hTd]
  set s := 1 - pr.r + pr.r * T with hs
  have hs0 : 0 < s := by nlinarith
  have hs1 : s < 1 := by nlinarith
  have bi := fun k => C34_bounded_influence L pr h0.le (calls k) (calls (k + 1)) (x k) (by rw [hu, hu, firstRows_succ, List.append_assoc])
      (by rw [hu, List.length_append]; omega) _ _ _ _ (pd k) (hC k) (hm k) (hC (k + 1)) (hm (k + 1))
  have shrink : ∀ k, Loewner (C k) (s ^ k • C 0) := by
    intro k
    induction k with
    | zero => intro z; simp
    | succ k ih =>
      intro z
      refine ((bi k).2.1 z).trans ?_
      rw [mul_assoc pr.r, ← hTd, ← hs, quad_smul, quad_smul, pow_succ']
      have := ih z
      rw [quad_smul] at this
      calc s * quad (C k) z ≤ s * (s ^ k * quad (C 0) z) := by gcongr
        _ = _ := by ring
  refine ⟨shrink k, fun i => ?_⟩
  set σ := Real.sqrt s with hσ
  have hσ0 : 0 ≤ σ := Real.sqrt_nonneg _
  have hσ1 : σ < 1 := by rw [hσ, Real.sqrt_lt' one_pos]; simpa using hs1
  have move : ∀ k, |m (k + 1) i - m k i| ≤ pr.r * Real.sqrt T * Real.sqrt (C 0 i i) * σ ^ k := by
    intro k
    have h1' := outer_le (pd k) (m (k + 1) - m k) (Pi.single i 1)
    rw [dotProduct_single, mul_one, quad_single] at h1'
    have h2 := (bi k).2.2
    rw [mul_assoc (pr.r ^ 2), ← hTd] at h2
    have h3 := shrink k (Pi.single i 1)
    rw [quad_single, quad_smul, quad_single] at h3
    have h4 : 0 ≤ C k i i := by have := (pd k).psd.2 (Pi.single i 1); rwa [quad_single] at this
    have h5 : 0 ≤ C 0 i i := by have := (pd 0).psd.2 (Pi.single i 1); rwa [quad_single] at this
    have h6 : (m (k + 1) i - m k i) ^ 2 ≤ (pr.r * Real.sqrt T * Real.sqrt (C 0 i i) * σ ^ k) ^ 2 := by
      have e : (pr.r * Real.sqrt T * Real.sqrt (C 0 i i) * σ ^ k) ^ 2 = (pr.r ^ 2 * T) * (s ^ k * C 0 i i) := by
        have e1 := Real.sq_sqrt hT0
        have e2 := Real.sq_sqrt h5
        have e3 : σ ^ 2 = s := Real.sq_sqrt hs0.le
        rw [mul_pow, mul_pow, mul_pow, e1, e2, ← pow_mul, mul_comm k 2, pow_mul, e3]; ring
      rw [e]
      refine h1'.trans (mul_le_mul h2 h3 h4 (by positivity))
    exact abs_le_of_sq_le_sq h6 (by positivity)
  have total : ∀ k, |m k i - m 0 i| ≤ pr.r * Real.sqrt T * Real.sqrt (C 0 i i) * ((1 - σ ^ k) / (1 - σ)) := by
    intro k
    induction k with
    | zero => simp
    | succ k ih =>
      have e : m (k + 1) i - m 0 i = (m (k + 1) i - m k i) + (m k i - m 0 i) := by ring
      rw [e]
      refine (abs_add_le _ _).trans ((add_le_add (move k) ih).trans (le_of_eq ?_))
      have : 1 - σ ≠ 0 := by linarith
      field_simp; ring
  refine (total k).trans ?_
  rw [div_eq_mul_inv _ (1 - σ)]
  refine mul_le_mul_of_nonneg_left ?_ (mul_nonneg (mul_nonneg h0.le (Real.sqrt_nonneg _)) (Real.sqrt_nonneg _))
  have h2 : 0 ≤ σ ^ k := pow_nonneg hσ0 k
  exact mul_le_of_le_one_left (inv_nonneg.2 (by linarith)) (by linarith)

/-- A burn-in of one 1 and zeros, in one dimension: the covariance is positive definite. -/
theorem huber_burn_pd (pr : HuberParam) (n : ℕ) (hn : n + 1 = ewaBurnN pr.r) (cs : List (Call (Fin 1) ℝ))
    (hu : used pr.diff cs = (fun _ => 1 : Fin 1 → ℝ) :: List.replicate n 0) (C : Matrix (Fin 1) (Fin 1) ℝ)
    (hC : ((new (huberCls L (Fin 1)) pr).run cs).covariance = .ok C) : PD C := by
  have hn5 := ewaBurnN_ge pr.r
  obtain ⟨_, h2⟩ := run_covariance_inv (huber_lawful L (Fin 1)) pr cs C hC
  have e : C = (huberFold L pr (used pr.diff cs)).cov := h2.trans (toSymmetric_of_symm (huberFold_symm L pr _))
  have hE := huberFold_burn L pr ((fun _ => 1 : Fin 1 → ℝ) :: List.replicate n (0 : Fin 1 → ℝ)) (by simp only [List.length_cons, List.length_replicate]; omega)
  have hn0 : (4:ℝ) ≤ n := by have : 4 ≤ n := by omega
                             exact_mod_cast this
  have hc : C 0 0 = n / (n + 1) ^ 2 := by
    rw [e, hu, hE, empFold_cov (by simp)]
    have hp : (n:ℝ) + 1 ≠ 0 := by positivity
    simp [covOf, meanOf]
    field_simp; ring
  have hs : Symm C := by rw [e]; exact huberFold_symm L pr _
  refine ⟨hs, fun z hz => ?_⟩
  have hz0 : z 0 ≠ 0 := fun h => hz (funext fun i => by rw [Subsingleton.elim i 0]; exact h)
  have : quad C z = C 0 0 * z 0 ^ 2 := by simp [quad, mulVec, dotProduct]; ring
  rw [this, hc]
  positivity

/-- C115 (finding): with `c < 1` and one variable there are rows after which HuberCovariance, shown nothing but the value `v` from then on, stays at `v - 1` or below. -/
theorem C115_huber_short (h0 : 0 < pr.r) (h1 : pr.r < 1) (hc : 0 ≤ pr.c) (hc1 : pr.c < 1) (hd : pr.diff = false) : ∃ (a : List (Fin 1 → ℝ)) (v : ℝ), a ≠ [] ∧
    ∀ (calls : ℕ → List (Call (Fin 1) ℝ)) (m : ℕ → Fin 1 → ℝ), (∀ k, used pr.diff (calls k) = a ++ firstRows k fun _ _ => v) →
      (∀ k, ((new (huberCls L (Fin 1)) pr).run (calls k)).location = .ok (m k)) → ∀ k, m k 0 ≤ v - 1 := by
  obtain ⟨n, hn⟩ : ∃ n, n + 1 = ewaBurnN pr.r := ⟨ewaBurnN pr.r - 1, by have := ewaBurnN_ge pr.r; omega⟩
  set a : List (Fin 1 → ℝ) := (fun _ => 1) :: List.replicate n 0 with ha
  have hb : ewaBurnN pr.r ≤ a.length := by rw [ha]; simp only [List.length_cons, List.length_replicate]; omega
  have hT : pr.c ^ 2 * (Fintype.card (Fin 1) : ℝ) < 1 := by simp; exact abs_lt.2 ⟨by linarith, hc1⟩
  set B := pr.r * Real.sqrt (pr.c ^ 2 * (Fintype.card (Fin 1) : ℝ)) * Real.sqrt ((huberFold L pr a).cov 0 0) /
      (1 - Real.sqrt (1 - pr.r + pr.r * pr.c ^ 2 * (Fintype.card (Fin 1) : ℝ))) with hB
  refine ⟨a, (huberFold L pr a).mean 0 + B + 1, by rw [ha]; simp, fun calls m hu hm k => ?_⟩
  have hne : ∀ k, used pr.diff (calls k) ≠ [] := fun k => by rw [hu, ha]; simp
  choose C hC using fun k => run_cov_ok (huber_lawful L (Fin 1)) pr (calls k) (hne k)
  have hu0 : used pr.diff (calls 0) = a := by rw [hu]; simp [firstRows]
  have hpd := huber_burn_pd L pr n hn (calls 0) (by rw [hu0]) _ (hC 0)
  have fr := (C115_huber_freezes L h0 h1 hc hT hu hb hC hm hpd k).2 0
  have e1 : m 0 = (huberFold L pr a).mean := by
    have h2 : m 0 = (huberFold L pr (used pr.diff (calls 0))).mean := (run_location_inv (huber_lawful L (Fin 1)) pr (calls 0) _ (hm 0)).2
    rw [h2, hu0]
  have e2 : C 0 = (huberFold L pr a).cov := by
    have h2 : C 0 = toSymmetric (huberFold L pr (used pr.diff (calls 0))).cov := (run_covariance_inv (huber_lawful L (Fin 1)) pr (calls 0) _ (hC 0)).2
    rw [h2, hu0]
    exact toSymmetric_of_symm (huberFold_symm L pr _)
  rw [e2, ← hB, e1] at fr
  have := (abs_le.1 fr).2
  linarith

/-- C115 (finding), as a statement about the class: with `c < 1` and one variable, HuberCovariance does not find every new level. -/
theorem C115_huber_stuck (h0 : 0 < pr.r) (h1 : pr.r < 1) (hc : 0 ≤ pr.c) (hc1 : pr.c < 1) (hd : pr.diff = false) : ¬ FindsLevel (huberCls L (Fin 1)) pr := by
  intro hF
  obtain ⟨a, v, hne, h⟩ := C115_huber_short L h0 h1 hc hc1 hd
  set calls : ℕ → List (Call (Fin 1) ℝ) := fun k => [.partialFit (.batch (a ++ firstRows k fun _ _ => v))] with hcalls
  have hu : ∀ k, used pr.diff (calls k) = a ++ firstRows k fun _ _ => v := fun k => by rw [hd, hcalls]; exact used_batch _
  have hm := fun k => run_location (huber_lawful L (Fin 1)) pr (calls k) (by show used pr.diff _ ≠ []; rw [hu]; simp [hne])
  have lim := hF a (fun _ _ => v) (fun _ => v) (fun i => tendsto_const_nhds) calls hu _ (Eventually.of_forall hm) 0
  have := le_of_tendsto' lim (h calls _ hu hm)
  linarith

/-- Non-vacuity of C115_huber: the default cut-off `c = 2.5` in one dimension. -/
example (r : ℝ) (h0 : 0 < r) (h1 : r < 1) (v : ℝ) : ∃ (calls : ℕ → List (Call (Fin 1) ℝ)) (m : ℕ → Fin 1 → ℝ),
    (∀ k, ((new (huberCls L (Fin 1)) (⟨r, 5 / 2, false⟩ : HuberParam)).run (calls k)).location = .ok (m k)) ∧ Tendsto (fun k => m k 0) atTop (𝓝 v) := by
  obtain ⟨n, hn⟩ : ∃ n, n + 1 = ewaBurnN r := ⟨ewaBurnN r - 1, by have := ewaBurnN_ge r; omega⟩
  set a : List (Fin 1 → ℝ) := (fun _ => 1) :: List.replicate n 0 with ha
  set calls : ℕ → List (Call (Fin 1) ℝ) := fun k => [.partialFit (.batch (a ++ List.replicate k fun _ => v))] with hcalls
  have hu : ∀ k, used false (calls k) = a ++ List.replicate k fun _ => v := fun k => by rw [hcalls]; exact used_batch _
  have hne : ∀ k, used false (calls k) ≠ [] := fun k => by rw [hu, ha]; simp
  choose C hC using fun k => run_cov_ok (huber_lawful L (Fin 1)) (⟨r, 5 / 2, false⟩ : HuberParam) (calls k) (hne k)
  have hm := fun k => run_location (huber_lawful L (Fin 1)) (⟨r, 5 / 2, false⟩ : HuberParam) (calls k) (hne k)
  refine ⟨calls, _, hm, ?_⟩
  obtain ⟨N, hN⟩ := exists_nat_ge (Real.sqrt (quad (C 0)⁻¹ ((fun _ => v) - _)) / (r * Real.sqrt ((5 / 2 : ℝ) ^ 2 * (Fintype.card (Fin 1) : ℝ))))
  refine (C115_huber L (pr := ⟨r, 5 / 2, false⟩) h0 h1 (by norm_num) (fun _ => v) hu (by rw [ha]; simp only [List.length_cons, List.length_replicate]; omega) hC hm
    (huber_burn_pd L ⟨r, 5 / 2, false⟩ n hn (calls 0) (by show used false _ = _; rw [hu]; simp [ha]) _ (hC 0)) N ?_).2.2 0
  refine (div_le_iff₀ ?_).1 hN
  have : 0 < Real.sqrt ((5 / 2 : ℝ) ^ 2 * (Fintype.card (Fin 1) : ℝ)) := Real.sqrt_pos.2 (by norm_num)
  positivity

end Huber

/-- Non-vacuity of `FindsLevel`: EwaCovariance fed the constant 3 after the row 0. -/
example : ∃ (calls : ℕ → List (Call (Fin 1) ℝ)) (m : ℕ → Fin 1 → ℝ), m 0 = 0 ∧
    (∀ k, ((new (ewaCls (Fin 1) ℝ) (⟨1 / 10, false⟩ : RParam ℝ)).run (calls k)).location = .ok (m k)) ∧ Tendsto (fun k => m k 0) atTop (𝓝 3) := by
  set calls : ℕ → List (Call (Fin 1) ℝ) := fun k => [.partialFit (.batch ([0] ++ firstRows k fun _ _ => 3))] with hcalls
  have hu : ∀ k, used false (calls k) = [0] ++ firstRows k fun _ _ => 3 := fun k => by rw [hcalls]; exact used_batch _
  have hm := fun k => run_location (ewa_lawful (Fin 1) ℝ) (⟨1 / 10, false⟩ : RParam ℝ) (calls k) (by show used false _ ≠ []; rw [hu]; simp)
  refine ⟨calls, _, ?_, hm, C115_ewa (⟨1 / 10, false⟩ : RParam ℝ) (by norm_num) (by norm_num) [0] (fun _ _ => 3) (fun _ => 3) (fun _ => tendsto_const_nhds) calls hu _
    (Eventually.of_forall hm) 0⟩
  show (ewaFold (1 / 10) (used false (calls 0))).mean = 0
  have e : used false (calls 0) = [0] := by rw [hu]; simp [firstRows]
  rw [e]
  funext i
  have h5 := ewaBurnN_ge (1 / 10 : ℝ)
  simp [ewaFold, ewaUpdate, ewaInit, ewaBurnStep, empUpdate, empInit]
  split <;> simp [ewaBlend]

end Precise
