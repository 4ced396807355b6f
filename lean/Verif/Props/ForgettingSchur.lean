import Verif.Props.ForgettingMore

/-!
# C114, continued: SchurConditionalCovariance
-/

set_option linter.all false

open Matrix Filter Topology

namespace Precise

open Spec Obj

/-- A continuous function of the covariance, once the covariance has entered a closed set. -/
theorem Spec.Merge.matrix_eventually {κ : Type} [Fintype κ] {A : Set (κ → κ → ℝ)} (hA : IsClosed A) (G : Matrix κ κ ℝ → ℝ)
    (hG : Continuous fun t : A => G (Matrix.of t.1))
    {S S' : ℕ → Matrix κ κ ℝ} (hS : ∀ᶠ k in atTop, (fun i j => S k i j) ∈ A) (hS' : ∀ᶠ k in atTop, (fun i j => S' k i j) ∈ A)
    (h : ∀ i j, Merge (fun k => S k i j) (fun k => S' k i j)) : Merge (fun k => G (S k)) (fun k => G (S' k)) := by
  let A' : Set (κ × κ → ℝ) := {z | (fun i j => z (i, j)) ∈ A}
  have cmap : Continuous fun z : κ × κ → ℝ => fun i j => z (i, j) := continuous_pi fun i => continuous_pi fun j => continuous_apply _
  have hA' : IsClosed A' := hA.preimage cmap
  have := Merge.map (κ := κ × κ) hA' (g := fun z => G (Matrix.of fun i j => z (i, j)))
    (u := fun k ij => S k ij.1 ij.2) (v := fun k ij => S' k ij.1 ij.2)
    (by
      rw [continuousOn_iff_continuous_restrict]
      exact hG.comp ((cmap.comp continuous_subtype_val).subtype_mk _ : Continuous fun z : A' => (⟨fun i j => z.1 (i, j), z.2⟩ : A)))
    hS hS' (fun ij => h ij.1 ij.2)
  exact this

variable {p : ℕ}

/-- The state with a given covariance after `n` rows. -/
noncomputable def scState (r : ℝ) (n : ℕ) (c : Matrix (Fin p) (Fin p) ℝ) : EwaState (Fin p) ℝ :=
  { toEmpState := { (empInit : EmpState (Fin p) ℝ) with nSamples := n, cov := c }, r := r, nBurn := ewaBurnN r }

theorem scNEff_late {r : ℝ} {n : ℕ} (hn : (2 - r) / r ≤ n) {s : EwaState (Fin p) ℝ} (hr : s.r = r) (hs : n ≤ s.nSamples) : scNEff s = max 2 ((2 - r) / r) := by
  unfold scNEff
  rw [hr, min_eq_right (hn.trans (by exact_mod_cast hs))]

theorem scGammaOf_late (pr : BlockParam) {r : ℝ} {n : ℕ} (hn : (2 - r) / r ≤ n) {s : EwaState (Fin p) ℝ} (hr : s.r = r) (hs : n ≤ s.nSamples) :
    scGammaOf pr s = scGammaOf pr (scState r n s.cov) := by
  unfold scGammaOf
  rw [scNEff_late hn hr hs, scNEff_late hn (s := scState r n s.cov) rfl le_rfl]
  rfl

theorem scCov_late (L : Lapack) (pr : BlockParam) {r : ℝ} {n : ℕ} (hn : (2 - r) / r ≤ n) {s : EwaState (Fin p) ℝ} (hr : s.r = r) (hs : n ≤ s.nSamples) :
    scCov L pr s = scCov L pr (scState r n s.cov) := by
  unfold scCov
  rw [scGammaOf_late pr hn hr hs, scNEff_late hn hr hs, scNEff_late hn (s := scState r n s.cov) rfl le_rfl]
  rfl

theorem contE_scState {T : Type} [TopologicalSpace T] (r : ℝ) (n : ℕ) {c : T → Matrix (Fin p) (Fin p) ℝ} (hc : Continuous c) :
    ContE r (ewaBurnN r) n (fun t => scState r n (c t)) :=
  ⟨fun _ => rfl, fun _ => rfl, ⟨fun _ => rfl, fun _ => continuous_const, fun i j => hc.matrix_elem i j⟩⟩

/-- Covariances with every variance at least `v`. -/
def floorSet (p : ℕ) (v : ℝ) : Set (Fin p → Fin p → ℝ) := {z | PSD (Matrix.of z) ∧ ∀ i, v ≤ z i i}

theorem isClosed_floorSet (v : ℝ) : IsClosed (floorSet p v) := by
  have e : floorSet p v = {z | ∀ i j, z i j = z j i} ∩ {z | ∀ x : Fin p → ℝ, 0 ≤ quad (Matrix.of z) x} ∩ {z | ∀ i, v ≤ z i i} := by
    ext z
    constructor
    · rintro ⟨⟨h1, h2⟩, h3⟩; exact ⟨⟨fun i j => h1 i j, h2⟩, h3⟩
    · rintro ⟨⟨h1, h2⟩, h3⟩; exact ⟨⟨fun i j => h1 i j, h2⟩, h3⟩
  rw [e]
  refine (IsClosed.inter ?_ ?_).inter ?_
  · simp only [Set.setOf_forall]
    exact isClosed_iInter fun i => isClosed_iInter fun j => isClosed_eq (by fun_prop) (by fun_prop)
  · simp only [Set.setOf_forall]
    refine isClosed_iInter fun x => isClosed_le continuous_const ?_
    simp only [quad_expand, Matrix.of_apply]
    fun_prop
  · simp only [Set.setOf_forall]
    exact isClosed_iInter fun i => isClosed_le continuous_const (by fun_prop)

theorem floorSet_solvable (pr : BlockParam) {v : ℝ} (hv : (p : ℝ) / 100 < v) {s : EwaState (Fin p) ℝ} (h : (fun i j => s.cov i j) ∈ floorSet p v) : scSolvable pr s := by
  obtain ⟨hpsd, hd⟩ := h
  have hpsd : PSD s.cov := hpsd
  intro k hk1 hk
  rcases Nat.eq_zero_or_pos p with rfl | hp
  · unfold nbClamped at hk; omega
  have hpp : (0:ℝ) < p := by exact_mod_cast hp
  have hvpos : 0 < v := lt_trans (by positivity) hv
  refine (scSystem_pd (e := (p : ℝ) * (1 / 10 ^ 12) / v) (symm_covToCorr hpsd.1) (fun i => ?_) ?_
    (fun x => corr_lower hpsd hvpos hd x) _ (by positivity)).det_pos.ne'
  · simp only [covToCorr, of_apply]
    exact div_nonneg (hpsd.diag_nonneg i) (add_nonneg (Real.sqrt_nonneg _) EPS_pos.le)
  · rw [div_lt_iff₀ hvpos]
    nlinarith

theorem late_rows {r : ℝ} (a : List (Fin p → ℝ)) (x : ℕ → Fin p → ℝ) (n : ℕ) : ∀ᶠ k in atTop, n ≤ (ewaFold r (a ++ firstRows k x)).nSamples := by
  filter_upwards [eventually_ge_atTop n] with k hk
  rw [ewaFold_n, List.length_append, firstRows_length]; omega

/-- C114: SchurConditionalCovariance: as long as the variances of one of the two histories stay (in the end) above `p/100`, the hedge regressions of both are
eventually solvable, so neither `covariance_` raises any more, and the two covariances merge. -/
theorem C114_schurConditional (L : Lapack) (pr : BlockParam) (h0 : 0 < pr.r) (h1 : pr.r ≤ 1) (a b : List (Fin p → ℝ)) (x y : ℕ → Fin p → ℝ)
    (hxy : ∀ i, Merge (fun k => x k i) (fun k => y k i)) (calls calls' : ℕ → List (Call (Fin p) ℝ))
    (hu : ∀ k, used pr.diff (calls k) = a ++ firstRows k x) (hu' : ∀ k, used pr.diff (calls' k) = b ++ firstRows k y)
    {v : ℝ} (hv : (p : ℝ) / 100 < v)
    (hC : ∀ᶠ k in atTop, ∃ C, ((new (ewaCls (Fin p) ℝ) ⟨pr.r, pr.diff⟩).run (calls k)).covariance = .ok C ∧ ∀ i, v ≤ C i i) :
    ∃ c c' : ℕ → Matrix (Fin p) (Fin p) ℝ,
      (∀ᶠ k in atTop, scCovariance? L ((new (schurCondCls L p) pr).run (calls k)) = .ok (c k)) ∧
      (∀ᶠ k in atTop, scCovariance? L ((new (schurCondCls L p) pr).run (calls' k)) = .ok (c' k)) ∧
      ∀ i j, Merge (fun k => c k i j) (fun k => c' k i j) := by
  classical
  set S := fun k => ewaFold pr.r (a ++ firstRows k x) with hS
  set S' := fun k => ewaFold pr.r (b ++ firstRows k y) with hS'
  obtain ⟨n, hn⟩ := exists_nat_ge ((2 - pr.r) / pr.r)
  have hm : ∀ i j, Merge (fun k => (S k).cov i j) (fun k => (S' k).cov i j) := ewa_merge_cov h0 h1 hxy a b
  set w : ℝ := ((p : ℝ) / 100 + v) / 2 with hw
  have hw1 : (p : ℝ) / 100 < w := by rw [hw]; linarith
  have hw2 : w < v := by rw [hw]; linarith
  have hin : ∀ᶠ k in atTop, (∀ i, v ≤ (S k).cov i i) := by
    filter_upwards [hC] with k ⟨C, hk, hCi⟩ i
    obtain ⟨hne, e⟩ := ewa_attrs_inv (⟨pr.r, pr.diff⟩ : RParam ℝ) (calls k) C hk
    have := hCi i
    rw [e] at this
    have e2 : used pr.diff (calls k) = a ++ firstRows k x := hu k
    simpa only [e2] using this
  have hA : ∀ᶠ k in atTop, (fun i j => (S k).cov i j) ∈ floorSet p w := by
    filter_upwards [hin] with k hk
    exact ⟨ewaFold_psd h0.le h1 _, fun i => hw2.le.trans (hk i)⟩
  have hA' : ∀ᶠ k in atTop, (fun i j => (S' k).cov i j) ∈ floorSet p w := by
    have : ∀ᶠ k in atTop, ∀ i, w ≤ (S' k).cov i i := by
      rw [Filter.eventually_all]
      intro i
      have h1 := (hm i i).lim
      filter_upwards [hin, (Metric.tendsto_nhds.1 h1 (v - w) (by linarith))] with k hk hd
      have := hk i
      rw [Real.dist_eq, sub_zero] at hd
      have := (abs_lt.1 hd).2
      linarith
    filter_upwards [this] with k hk
    exact ⟨ewaFold_psd h0.le h1 _, hk⟩
  have hcont : Continuous fun t : floorSet p w => scCov L pr (scState pr.r n (Matrix.of t.1)) :=
    continuous_scCov L pr (contE_scState pr.r n (continuous_matrix fun i j => (continuous_apply j).comp ((continuous_apply i).comp continuous_subtype_val)))
      fun t => floorSet_solvable pr hw1 t.2
  have hl : ∀ s : EwaState (Fin p) ℝ, s.r = pr.r → n ≤ s.nSamples → ∀ i j, scCov L pr s i j = scCov L pr (scState pr.r n s.cov) i j := by
    intro s hr hs i j
    rw [scCov_late L pr hn hr hs]
  have hG : ∀ i j, Merge (fun k => scCov L pr (S k) i j) (fun k => scCov L pr (S' k) i j) := by
    intro i j
    have := Merge.matrix_eventually (isClosed_floorSet w) (fun c => scCov L pr (scState pr.r n c) i j) (hcont.matrix_elem i j) hA hA' hm
    refine this.congr ?_ ?_
    · filter_upwards [late_rows a x n] with k hk
      exact hl _ (ewaFold_r _ _) hk i j
    · filter_upwards [late_rows b y n] with k hk
      exact hl _ (ewaFold_r _ _) hk i j
  have hget : ∀ (a : List (Fin p → ℝ)) (x : ℕ → Fin p → ℝ) (calls : ℕ → List (Call (Fin p) ℝ)), (∀ k, used pr.diff (calls k) = a ++ firstRows k x) →
      (∀ᶠ k in atTop, (fun i j => (ewaFold pr.r (a ++ firstRows k x)).cov i j) ∈ floorSet p w) →
      ∀ᶠ k in atTop, scCovariance? L ((new (schurCondCls L p) pr).run (calls k)) = .ok (toSymmetric (scCov L pr (ewaFold pr.r (a ++ firstRows k x)))) := by
    intro a x calls hu hA
    filter_upwards [hA, eventually_gt_atTop 0] with k hk hk0
    have hne : used pr.diff (calls k) ≠ [] := by
      rw [hu]; intro e
      have := congrArg List.length e
      rw [List.length_append, firstRows_length, List.length_nil] at this; omega
    unfold scCovariance?
    rw [(sc_attrs L pr (calls k) hne).1, (sc_attrs L pr (calls k) hne).2, hu]
    simp only []
    rw [if_pos (floorSet_solvable pr hw1 hk)]
  refine ⟨_, _, hget a x calls hu hA, hget b y calls' hu' hA', fun i j => ?_⟩
  refine (((hG i j).add (hG j i)).mul (Merge.const (1 / 2))).congr ?_ ?_ <;>
  · refine Eventually.of_forall fun k => ?_
    simp only [toSymmetric, Matrix.of_apply]; ring

/-- C114: `gamma_` of SchurConditionalCovariance forgets, whatever the data. -/
theorem C114_schurConditional_gamma (L : Lapack) (pr : BlockParam) (h0 : 0 < pr.r) (h1 : pr.r ≤ 1) (a b : List (Fin p → ℝ)) (x y : ℕ → Fin p → ℝ)
    (hxy : ∀ i, Merge (fun k => x k i) (fun k => y k i)) (calls calls' : ℕ → List (Call (Fin p) ℝ))
    (hu : ∀ k, used pr.diff (calls k) = a ++ firstRows k x) (hu' : ∀ k, used pr.diff (calls' k) = b ++ firstRows k y) (g g' : ℕ → ℝ)
    (e : ∀ᶠ k in atTop, scGammaAttr L ((new (schurCondCls L p) pr).run (calls k)) = .ok (g k))
    (e' : ∀ᶠ k in atTop, scGammaAttr L ((new (schurCondCls L p) pr).run (calls' k)) = .ok (g' k)) : Merge g g' := by
  obtain ⟨n, hn⟩ := exists_nat_ge ((2 - pr.r) / pr.r)
  have hm := ewa_merge_cov h0 h1 hxy a b
  have hcont : Continuous fun t : (Set.univ : Set (Fin p → Fin p → ℝ)) => scGammaOf pr (scState pr.r n (Matrix.of t.1)) := by
    have hc : Continuous fun t : (Set.univ : Set (Fin p → Fin p → ℝ)) => (Matrix.of t.1 : Matrix (Fin p) (Fin p) ℝ) :=
      continuous_matrix fun i j => (continuous_apply j).comp ((continuous_apply i).comp continuous_subtype_val)
    unfold scGammaOf
    have : ∀ t : (Set.univ : Set (Fin p → Fin p → ℝ)), scNEff (scState pr.r n (Matrix.of t.1)) = max 2 ((2 - pr.r) / pr.r) := fun t => scNEff_late hn rfl le_rfl
    simp only [this]
    exact continuous_scGamma _ (continuous_covToCorr hc) (lt_of_lt_of_le two_pos (le_max_left _ _))
  have := Merge.matrix_eventually isClosed_univ (fun c => scGammaOf pr (scState pr.r n c)) hcont (Eventually.of_forall fun _ => trivial) (Eventually.of_forall fun _ => trivial) hm
  have get : ∀ (a : List (Fin p → ℝ)) (x : ℕ → Fin p → ℝ) (calls : ℕ → List (Call (Fin p) ℝ)) (g : ℕ → ℝ), (∀ k, used pr.diff (calls k) = a ++ firstRows k x) →
      (∀ᶠ k in atTop, scGammaAttr L ((new (schurCondCls L p) pr).run (calls k)) = .ok (g k)) →
      ∀ᶠ k in atTop, g k = scGammaOf pr (scState pr.r n (ewaFold pr.r (a ++ firstRows k x)).cov) := by
    intro a x calls g hu e
    filter_upwards [e, late_rows a x n, eventually_gt_atTop 0] with k hk hl hk0
    have hne : used pr.diff (calls k) ≠ [] := by
      rw [hu]; intro e
      have := congrArg List.length e
      rw [List.length_append, firstRows_length, List.length_nil] at this; omega
    unfold scGammaAttr at hk
    rw [(sc_attrs L pr (calls k) hne).1, (sc_attrs L pr (calls k) hne).2, hu] at hk
    simp only [Except.map] at hk
    rw [← scGammaOf_late pr hn (ewaFold_r _ _) hl]
    exact (Except.ok.inj hk).symm
  exact this.congr (get a x calls g hu e) (get b y calls' g' hu' e')

/-- After any past, the stream `1, -1, 1, -1, …` keeps both variances of the EWA above 1 (rate 1/2), so the hypotheses of `C114_schurConditional` hold with two
columns and two blocks. -/
theorem alternating_variance (a : List (Fin 2 → ℝ)) : ∀ᶠ k in atTop, ∀ i, (1:ℝ) ≤ (ewaFold (1 / 2) (a ++ firstRows k fun k _ => (-1) ^ k)).cov i i := by
  set x : ℕ → Fin 2 → ℝ := fun k _ => (-1) ^ k with hx
  have h := ewa_post (1 / 2) a x
  obtain ⟨N, hN⟩ := eventually_atTop.1 h
  refine eventually_atTop.2 ⟨N + 2, fun k hk i => ?_⟩
  obtain ⟨j, rfl⟩ : ∃ j, k = j + 2 := ⟨k - 2, by omega⟩
  have h1 := hN j (by omega)
  have h2 := hN (j + 1) (by omega)
  have c0 := (ewaFold_psd (r := 1 / 2) (by norm_num) (by norm_num) (a ++ firstRows j x)).diag_nonneg i
  have m1 := h1.1 i
  have c1 := h1.2 i i
  have c2 := h2.2 i i
  have e1 : x (j + 1) i = - x j i := by simp only [hx]; ring
  have e2 : x j i * x j i = 1 := by simp only [hx]; rw [← mul_pow]; norm_num
  rw [show j + 2 = j + 1 + 1 from rfl, c2, c1, m1, e1]
  generalize (ewaFold (1 / 2) (a ++ firstRows j x)).mean i = m at *
  generalize (ewaFold (1 / 2) (a ++ firstRows j x)).cov i i = c at *
  generalize x j i = u at *
  nlinarith [sq_nonneg (3 * (u - m) - 4 * u)]

example (L : Lapack) : ∃ c c' : ℕ → Matrix (Fin 2) (Fin 2) ℝ,
    (∀ᶠ k in atTop, scCovariance? L ((new (schurCondCls L 2) ⟨1 / 2, 2, false⟩).run [.partialFit (.batch ([![5, 7]] ++ firstRows k fun k _ => (-1) ^ k))]) = .ok (c k)) ∧
    (∀ᶠ k in atTop, scCovariance? L ((new (schurCondCls L 2) ⟨1 / 2, 2, false⟩).run [.partialFit (.batch ([![0, 0], ![1, 2]] ++ firstRows k fun k _ => (-1) ^ k))]) = .ok (c' k)) ∧
    ∀ i j, Merge (fun k => c k i j) (fun k => c' k i j) := by
  have hu : ∀ k, used false [.partialFit (.batch ([![5, 7]] ++ firstRows k fun k _ => (-1) ^ k))] = [![(5:ℝ), 7]] ++ firstRows k fun k _ => (-1) ^ k := fun k => used_batch _
  refine C114_schurConditional L (⟨1 / 2, 2, false⟩ : BlockParam) (by norm_num) (by norm_num) [![5, 7]] [![0, 0], ![1, 2]] (fun k _ => (-1) ^ k) (fun k _ => (-1) ^ k)
    (fun i => ⟨⟨1, Eventually.of_forall fun k => by simp [abs_pow]⟩, by simp⟩) _ _ hu (fun k => used_batch _) (v := 1) (by norm_num) ?_
  filter_upwards [alternating_variance [![5, 7]], eventually_gt_atTop 0] with k hk hk0
  exact ⟨_, (ewa_attrs (⟨1 / 2, false⟩ : RParam ℝ) _ ((hu k).trans_ne (by simp))).2.trans
    (congrArg (fun l => Except.ok (ewaFold (1 / 2) l).cov) (hu k)), hk⟩

end Precise
