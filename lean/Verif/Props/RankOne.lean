import Verif.Spec.RankOne
import Verif.Props.Ledger

/-!
# C138: `precision_` carried forward
-/

set_option linter.all false

open Matrix

namespace Precise

open Spec Obj

variable {ι : Type} [Fintype ι] [DecidableEq ι]

omit [DecidableEq ι] in
theorem carried_eq (decay gain : ℝ) {P : Matrix ι ι ℝ} (e : ι → ℝ) :
    carried decay gain P e = decay⁻¹ • (P - (gain / (1 + gain * quad P e)) • outer (P *ᵥ e) (P *ᵥ e)) := by
  ext i j
  simp only [carried, of_apply, Matrix.smul_apply, Matrix.sub_apply, outer, smul_eq_mul, quad_expand, mulVec, dotProduct]
  rw [div_eq_inv_mul]

theorem carried_mul {c P : Matrix ι ι ℝ} (hP : Symm P) (hcP : c * P = 1) {decay gain : ℝ} (hd : decay ≠ 0) (e : ι → ℝ) (hg : 1 + gain * quad P e ≠ 0) :
    (decay • (c + gain • outer e e)) * carried decay gain P e = 1 := by
  have ho : ∀ u v w z : ι → ℝ, outer u v * outer w z = (v ⬝ᵥ w) • outer u z := by
    intro u v w z
    ext i j
    simp only [Matrix.mul_apply, outer, of_apply, Matrix.smul_apply, smul_eq_mul, dotProduct, Finset.sum_mul]
    exact Finset.sum_congr rfl fun k _ => by ring
  have h0 : ∀ u v : ι → ℝ, c * outer u v = outer (c *ᵥ u) v := by
    intro u v
    ext i j
    simp only [Matrix.mul_apply, outer, of_apply, mulVec, dotProduct, Finset.sum_mul]
    exact Finset.sum_congr rfl fun k _ => by ring
  have h1 : c * outer (P *ᵥ e) (P *ᵥ e) = outer e (P *ᵥ e) := by rw [h0, mulVec_mulVec, hcP, one_mulVec]
  have h2 : outer e e * P = outer e (P *ᵥ e) := by
    ext i j
    simp only [Matrix.mul_apply, outer, of_apply, mulVec, dotProduct, Finset.mul_sum]
    exact Finset.sum_congr rfl fun k _ => by rw [hP k j]; ring
  have h3 : e ⬝ᵥ (P *ᵥ e) = quad P e := rfl
  rw [carried_eq, smul_mul_smul_comm, mul_inv_cancel₀ hd, one_smul, add_mul, mul_sub, mul_sub, hcP, smul_mul_smul_comm, Matrix.mul_smul, h1, Matrix.smul_mul, h2, ho, h3,
    smul_smul]
  have : ((gain / (1 + gain * quad P e)) + gain * (gain / (1 + gain * quad P e)) * quad P e) = gain := by field_simp
  ext i j
  simp only [Matrix.add_apply, Matrix.sub_apply, Matrix.smul_apply, smul_eq_mul]
  linear_combination (-(outer e (P *ᵥ e) i j)) * this

theorem carried_quad {P : Matrix ι ι ℝ} {decay gain : ℝ} (hd : decay ≠ 0) (e : ι → ℝ) (hg : 1 + gain * quad P e ≠ 0) :
    quad (carried decay gain P e) e = quad P e / (1 + gain * quad P e) / decay := by
  have : quad (outer (P *ᵥ e) (P *ᵥ e)) e = quad P e * quad P e := by
    rw [quad_expand]
    have e1 : ∑ i, ∑ j, e i * outer (P *ᵥ e) (P *ᵥ e) i j * e j = (∑ i, e i * (P *ᵥ e) i) * ∑ j, e j * (P *ᵥ e) j := by
      rw [Finset.sum_mul_sum]
      exact Finset.sum_congr rfl fun i _ => Finset.sum_congr rfl fun j _ => by simp only [outer, of_apply]; ring
    rw [e1]; rfl
  rw [carried_eq, quad_smul, quad_sub, quad_smul, this]
  generalize quad P e = q at hg ⊢
  have h : q - gain / (1 + gain * q) * (q * q) = q / (1 + gain * q) := by
    rw [eq_div_iff hg, sub_mul, div_mul_eq_mul_div, div_mul_cancel₀ _ hg]
    ring
  rw [h, div_eq_inv_mul _ decay]

theorem carries_of_fold (L : Lapack) {C : Cls ι ℝ} (p : C.Param) {n0 : ℕ} (hn : 0 < n0) {decay gain keep : ℕ → ℝ}
    (S : List (ι → ℝ) → EmpState ι ℝ)
    (hcov : ∀ calls, used (C.diff p) calls ≠ [] → ((new C p).run calls).covariance = .ok (S (used (C.diff p) calls)).cov)
    (hloc : ∀ calls, used (C.diff p) calls ≠ [] → ((new C p).run calls).location = .ok (S (used (C.diff p) calls)).mean)
    (hd : ∀ N, n0 ≤ N → 0 < decay N) (hg : ∀ N, n0 ≤ N → 0 ≤ gain N)
    (h : ∀ (xs : List (ι → ℝ)) (x : ι → ℝ), n0 ≤ xs.length →
      (S (xs ++ [x])).cov = decay xs.length • ((S xs).cov + gain xs.length • outer (x - (S xs).mean) (x - (S xs).mean)))
    (hm : ∀ (xs : List (ι → ℝ)) (x : ι → ℝ), n0 ≤ xs.length → x - (S (xs ++ [x])).mean = keep xs.length • (x - (S xs).mean)) :
    CarriesPrecision L C p n0 decay gain fun N => keep N ^ 2 / decay N := by
  intro a x calls ha hu c0 hc0 hpd0
  have hne : ∀ k, used (C.diff p) (calls k) ≠ [] := by
    intro k e
    rw [hu] at e
    have := congrArg List.length e
    rw [List.length_append, List.length_nil] at this; omega
  have hlen : ∀ k, (a ++ firstRows k x).length = a.length + k := by intro k; simp [firstRows]
  have hstep : ∀ k, (S (a ++ firstRows (k + 1) x)).cov = decay (a.length + k) • ((S (a ++ firstRows k x)).cov +
      gain (a.length + k) • outer (x k - (S (a ++ firstRows k x)).mean) (x k - (S (a ++ firstRows k x)).mean)) := by
    intro k
    rw [firstRows_succ, ← List.append_assoc, h _ _ (by rw [hlen]; omega), hlen]
  have hmean : ∀ k, x k - (S (a ++ firstRows (k + 1) x)).mean = keep (a.length + k) • (x k - (S (a ++ firstRows k x)).mean) := by
    intro k
    rw [firstRows_succ, ← List.append_assoc, hm _ _ (by rw [hlen]; omega), hlen]
  have hpd : ∀ k, PD (S (a ++ firstRows k x)).cov := by
    intro k
    induction k with
    | zero =>
      rw [hcov _ (hne 0), hu] at hc0
      rw [Except.ok.inj hc0]; exact hpd0
    | succ k ih =>
      rw [hstep]
      exact (ih.add_psd ((psd_outer _).smul (hg _ (by omega)))).smul (hd _ (by omega))
  have hcovk : ∀ k, ((new C p).run (calls k)).covariance = .ok (S (a ++ firstRows k x)).cov := fun k => by rw [hcov _ (hne k), hu]
  have hlock : ∀ k, ((new C p).run (calls k)).location = .ok (S (a ++ firstRows k x)).mean := fun k => by rw [hloc _ (hne k), hu]
  have hprec : ∀ k, ((new C p).run (calls k)).precision L = .ok (tryInvert L (S (a ++ firstRows k x)).cov) := fun k => by
    unfold Obj.precision; rw [hcovk k]; rfl
  have hfacts : ∀ k, PD (tryInvert L (S (a ++ firstRows k x)).cov) ∧ (S (a ++ firstRows k x)).cov * tryInvert L (S (a ++ firstRows k x)).cov = 1 ∧
      tryInvert L (S (a ++ firstRows k x)).cov * (S (a ++ firstRows k x)).cov = 1 := fun k => precision_facts L _ _ _ (hcovk k) (hprec k) (hpd k)
  have hgq : ∀ k, 1 + gain (a.length + k) * quad (tryInvert L (S (a ++ firstRows k x)).cov) (x k - (S (a ++ firstRows k x)).mean) ≠ 0 := fun k => by
    have := mul_nonneg (hg (a.length + k) (by omega)) ((hfacts k).1.psd.2 (x k - (S (a ++ firstRows k x)).mean))
    linarith
  have hcarry : ∀ k, tryInvert L (S (a ++ firstRows (k + 1) x)).cov = carried (decay (a.length + k)) (gain (a.length + k)) (tryInvert L (S (a ++ firstRows k x)).cov)
      (x k - (S (a ++ firstRows k x)).mean) := fun k => by
    have e1 := carried_mul (hfacts k).1.1 (hfacts k).2.1 (hd (a.length + k) (by omega)).ne' (x k - (S (a ++ firstRows k x)).mean) (hgq k)
    rw [← hstep] at e1
    have e2 := (hfacts (k + 1)).2.2
    calc _ = tryInvert L (S (a ++ firstRows (k + 1) x)).cov * 1 := (mul_one _).symm
      _ = _ := by rw [← e1, ← Matrix.mul_assoc, e2, Matrix.one_mul]
  have hrow : ∀ j k, ((new C p).run (calls j)).mahalanobis L (.row (x k)) =
      .ok [quad (tryInvert L (S (a ++ firstRows j x)).cov) (x k - (S (a ++ firstRows j x)).mean)] := fun j k => by
    have e : ((new C p).run (calls j)).mahalanobis L (.row (x k)) = ((new C p).run (calls j)).mahalanobis L (.batch [x k]) := rfl
    rw [e, maha_eq L _ _ _ (hcovk j) (hlock j)]; rfl
  refine ⟨fun k => (S (a ++ firstRows k x)).mean, fun k => tryInvert L (S (a ++ firstRows k x)).cov, _, _, hlock, hprec, hcarry, fun k => hrow k k,
    fun k => hrow (k + 1) k, fun k => ?_⟩
  dsimp only
  have hk2 : ∀ (A : Matrix ι ι ℝ) (t : ℝ) (v : ι → ℝ), quad A (t • v) = t ^ 2 * quad A v := by
    intro A t v; simp only [quad, mulVec_smul, dotProduct_smul, smul_dotProduct, smul_eq_mul]; ring
  rw [hmean, hcarry, hk2, carried_quad (hd (a.length + k) (by omega)).ne' _ (hgq k)]
  ring

/-- C138: EwaCovariance after its burn-in: what is reported from scratch is what rank-one corrections carry forward; feeding an observation takes its distance from `D`
to `(1 - r)² D / (1 - r + r D)` (`shrink = 1 - r`, `gain = r / (1 - r)`). -/
theorem C138_ewa (L : Lapack) (p : RParam ℝ) (h0 : 0 ≤ p.r) (h1 : p.r < 1) :
    CarriesPrecision L (ewaCls ι ℝ) p (ewaBurnN p.r) (fun _ => 1 - p.r) (fun _ => p.r / (1 - p.r)) fun _ => 1 - p.r := by
  have h2 : 0 < 1 - p.r := by linarith
  have hs : (1 - p.r) ^ 2 / (1 - p.r) = 1 - p.r := by field_simp
  have := carries_of_fold L (C := ewaCls ι ℝ) p (calib_burn_pos p.r) (decay := fun _ => 1 - p.r) (gain := fun _ => p.r / (1 - p.r)) (keep := fun _ => 1 - p.r)
    (fun xs => (ewaFold p.r xs).toEmpState) (fun calls h => (ewa_attrs p calls h).2)
    (fun calls h => (ewa_attrs p calls h).1) (fun _ _ => h2) (fun _ _ => by positivity) (fun xs x h => ?_) fun xs x h => ?_
  · simp only [hs] at this; exact this
  · rw [ewaFold_snoc, ewa_step h]
    show (1 - p.r) • (ewaFold p.r xs).cov + p.r • outer (x - (ewaFold p.r xs).mean) (x - (ewaFold p.r xs).mean) = _
    rw [smul_add, smul_smul, mul_div_cancel₀ _ h2.ne']
  · rw [ewaFold_snoc, ewa_step h]
    funext i
    simp only [ewaBlend, Pi.sub_apply, Pi.smul_apply, smul_eq_mul]
    ring

/-- C138: EmpiricalCovariance: the distance goes from `D` to `N² / (N + 1)² * (N + 1) / N * D / (1 + D / (N + 1))`, with `N` the number of observations before. -/
theorem C138_empirical (L : Lapack) (d : Bool) :
    CarriesPrecision L (empiricalCls ι ℝ) d 1 (fun N => (N : ℝ) / (N + 1)) (fun N => 1 / ((N : ℝ) + 1)) fun N => ((N : ℝ) / (N + 1)) ^ 2 / ((N : ℝ) / (N + 1)) := by
  refine carries_of_fold L (C := empiricalCls ι ℝ) d one_pos (keep := fun N => (N : ℝ) / (N + 1)) (fun xs => empFold xs)
    (fun calls h => by rw [(C15_batch d calls h).2.1, empFold_cov h]; rfl) (fun calls h => by rw [(C15_batch d calls h).1, empFold_mean h]; rfl)
    (fun N hN => by have : (0:ℝ) < N := by exact_mod_cast hN
                    positivity) (fun N _ => by positivity) (fun xs x h => ?_) fun xs x h => ?_
  · have hN : (0:ℝ) < xs.length := by exact_mod_cast h
    rw [empFold_snoc, empUpdate_cov, empFold_n, smul_add, smul_smul]
    congr 2
    field_simp
  · have hN : (0:ℝ) < xs.length := by exact_mod_cast h
    rw [empFold_snoc, empUpdate_mean, empFold_n]
    funext i
    simp only [Pi.sub_apply, Pi.smul_apply, smul_eq_mul]
    field_simp
    ring

/-- Non-vacuity: the demonstration rows and one more, then zeros, to either class. -/
example (L : Lapack) : ∃ (m : ℕ → Fin 2 → ℝ) (P : ℕ → Matrix (Fin 2) (Fin 2) ℝ), ∀ k : ℕ,
    ((new (empiricalCls (Fin 2) ℝ) false).run [.partialFit (.batch (demoRows ++ [0] ++ firstRows k fun _ => 0))]).precision L = .ok (P k) ∧
    P (k + 1) = carried ((5 + k : ℕ) / ((5 + k : ℕ) + 1)) (1 / ((5 + k : ℕ) + 1)) (P k) (0 - m k) := by
  have hu : ∀ k, used false [Call.partialFit (.batch (demoRows ++ [0] ++ firstRows k fun _ => 0))] = demoRows ++ [0] ++ firstRows k fun _ => (0 : Fin 2 → ℝ) := fun k => by
    simp [used, effective, rowsSinceFit, rowsOf, demoRows]
  have hu0 := hu 0
  have hc0 := (C15_batch (ι := Fin 2) (K := ℝ) false [Call.partialFit (.batch (demoRows ++ [0] ++ firstRows 0 fun _ => 0))] (by rw [hu0]; simp [demoRows])).2.1
  rw [hu0] at hc0
  have e0 : demoRows ++ [0] ++ firstRows 0 (fun _ => (0 : Fin 2 → ℝ)) = demoRows ++ [0] := by simp [firstRows]
  obtain ⟨m, P, _, _, _, h2, h3, _⟩ := C138_empirical L false (demoRows ++ [0]) (fun _ => 0) (fun k => [.partialFit (.batch (demoRows ++ [0] ++ firstRows k fun _ => 0))])
    (by simp [demoRows]) hu _ hc0 (by rw [e0]; exact demo5_pd)
  refine ⟨m, P, fun k => ⟨h2 k, ?_⟩⟩
  have := h3 k
  have hl : (demoRows ++ [(0 : Fin 2 → ℝ)]).length = 5 := rfl
  rw [hl] at this
  exact this

end Precise
