import Verif.Props.NewLevel
import Verif.Props.ForgettingGeodesic

/-!
# C114, continued: Huber and Factor need not forget; AdaptiveEwa with a cap at or below `r` does
-/

set_option linter.all false

open Matrix Filter Topology

namespace Precise

open Spec Obj

/-! ## HuberCovariance with `c < 1` -/

theorem huber_const_mean (L : Lapack) (pr : HuberParam) (v : ℝ) (k : ℕ) : (huberFold L pr (List.replicate (k + 1) (fun _ => v : Fin 1 → ℝ))).mean = fun _ => v := by
  induction k with
  | zero =>
    have h5 := ewaBurnN_ge pr.r
    funext i
    simp [huberFold, huberUpdate, ewaInit, ewaBurnStep, empUpdate, empInit]
    split
    · simp
    · omega
  | succ k ih =>
    rw [List.replicate_succ', huberFold_snoc]
    generalize huberFold L pr (List.replicate (k + 1) (fun _ => v : Fin 1 → ℝ)) = st at ih ⊢
    funext i
    unfold huberUpdate
    split
    · simp [ewaBurnStep, empUpdate, ih]
    · simp [ih]

/-- C114 (finding): HuberCovariance with one variable and `c < 1` does not forget: an instance shown the value `v` from the start reports `v`; one that saw
other rows first stops short of `v` and stays there. -/
theorem C114_huber (L : Lapack) (pr : HuberParam) (h0 : 0 < pr.r) (h1 : pr.r < 1) (hc : 0 ≤ pr.c) (hc1 : pr.c < 1) (hd : pr.diff = false) :
    ¬ Forgets (huberCls L (Fin 1)) pr := by
  intro hF
  obtain ⟨a, v, hne, h⟩ := C115_huber_short L h0 h1 hc hc1 hd
  set calls : List (Fin 1 → ℝ) → ℕ → List (Call (Fin 1) ℝ) := fun a k => [.partialFit (.batch (a ++ firstRows k fun _ _ => v))] with hcalls
  have hu : ∀ a k, used pr.diff (calls a k) = a ++ firstRows k fun _ _ => v := fun a k => by rw [hd, hcalls]; exact used_batch _
  have hm := fun a (ha : a ≠ []) k => run_location (huber_lawful L (Fin 1)) pr (calls a k) (by show used pr.diff _ ≠ []; rw [hu]; simp [ha])
  have hrep : ∀ k, firstRows k (fun _ => (fun _ => v : Fin 1 → ℝ)) = List.replicate k (fun _ => v) := fun k => List.eq_replicate_iff.2 ⟨firstRows_length _ _, fun b hb => by
    obtain ⟨t, -, rfl⟩ := List.mem_map.1 hb; rfl⟩
  have hv : ∀ k, (huberCls L (Fin 1)).toMean pr ((used ((huberCls L (Fin 1)).diff pr) (calls [fun _ => v] k)).foldl ((huberCls L (Fin 1)).updateState pr)
      ((huberCls L (Fin 1)).initState pr)) = fun _ => v := by
    intro k
    show (huberFold L pr (used pr.diff (calls [fun _ => v] k))).mean = _
    rw [hu, hrep]
    exact huber_const_mean L pr v k
  have M := (hF a [fun _ => v] (fun _ _ => v) (fun _ _ => v) (fun i => Merge.const v) (calls a) (calls [fun _ => v]) (hu a) (hu _)).1 _ _
    (Eventually.of_forall (hm a hne)) (Eventually.of_forall (hm [fun _ => v] (by simp))) 0
  have lim := M.lim
  simp only [hv] at lim
  have := le_of_tendsto' lim (fun k => show _ ≤ (-1 : ℝ) by have := h (calls a) _ (hu a) (hm a hne) k; linarith)
  linarith

example (L : Lapack) : ¬ Forgets (huberCls L (Fin 1)) (⟨1 / 20, 1 / 2, false⟩ : HuberParam) :=
  C114_huber L _ (by norm_num) (by norm_num) (by norm_num) (by norm_num) rfl

/-! ## FactorCovariance -/

section Factor

variable {r : ℝ}

/-- One factor, along `f`. -/
def Along (r : ℝ) (f : Fin 2 → ℝ) (st : FactorState (Fin 2)) (mu : Fin 2 → ℝ) (lam : ℝ) : Prop :=
  st.mean = mu ∧ st.V = [lam • f] ∧ 2 ≤ st.nSamples ∧ st.nBurn = 2 ∧ st.r = r

theorem norm_along {f : Fin 2 → ℝ} (hf : normSq f = 2) {lam : ℝ} (h : 0 < lam) : vecNorm (lam • f) = lam * Real.sqrt 2 := by
  unfold vecNorm
  have : normSq (lam • f) = lam ^ 2 * normSq f := by simp [normSq, Fin.sum_univ_two]; ring
  rw [this, hf, Real.sqrt_mul (sq_nonneg _), Real.sqrt_sq h.le]

theorem along_step {f u : Fin 2 → ℝ} (hf : normSq f = 2) {st : FactorState (Fin 2)} {mu : Fin 2 → ℝ} {lam : ℝ} (h : Along r f st mu lam) (hl : 0 < lam)
    (he : EPS ≤ lam * Real.sqrt 2) :
    (factorUpdate st (mu + u)).mean = mu + r • u ∧ (factorUpdate st (mu + u)).V = [fun i => (1 - r) * (lam * f i) + r * ((∑ i, u i * f i) / Real.sqrt 2) * u i] ∧
    2 ≤ (factorUpdate st (mu + u)).nSamples ∧ (factorUpdate st (mu + u)).nBurn = 2 ∧ (factorUpdate st (mu + u)).r = r := by
  obtain ⟨e1, e2, e3, e4, e5⟩ := h
  have h2 : 0 < Real.sqrt 2 := Real.sqrt_pos.2 (by norm_num)
  have hn : ¬ (st.nSamples + 1 ≤ st.nBurn) := by omega
  have hdev : (fun i => (mu + u) i - st.mean i) = u := by rw [e1]; funext i; simp
  unfold factorUpdate
  simp only [hn, if_false, hdev, e2, factorLoop, norm_along hf hl, if_neg (not_lt.2 he), e5, e1]
  refine ⟨?_, ?_, by omega, e4, trivial⟩
  · funext i; simp; ring
  · congr 1
    funext i
    have : ∑ j, u j * ((lam • f) j / (lam * Real.sqrt 2)) = (∑ j, u j * f j) / Real.sqrt 2 := by
      rw [Finset.sum_div]
      refine Finset.sum_congr rfl fun j _ => ?_
      simp only [Pi.smul_apply, smul_eq_mul]; field_simp
    have hd' : ∀ j, (mu + u) j - mu j = u j := fun j => by simp
    simp only [hd']
    rw [this]
    simp only [Pi.smul_apply, smul_eq_mul]

theorem along_par {f : Fin 2 → ℝ} (hf : normSq f = 2) {st : FactorState (Fin 2)} {mu : Fin 2 → ℝ} {lam : ℝ} (h : Along r f st mu lam) (hl : 0 < lam)
    (he : EPS ≤ lam * Real.sqrt 2) (c : ℝ) : Along r f (factorUpdate st (mu + c • f)) (mu + r • c • f) ((1 - r) * lam + r * c ^ 2 * Real.sqrt 2) := by
  obtain ⟨h1, h2, h3⟩ := along_step hf h hl he (u := c • f)
  refine ⟨h1, h2.trans ?_, h3⟩
  have e : ∑ i, (c • f) i * f i = c * 2 := by rw [← hf]; simp [normSq, Fin.sum_univ_two]; ring
  have hs : (2:ℝ) / Real.sqrt 2 = Real.sqrt 2 := Real.div_sqrt
  rw [e, mul_div_assoc, hs]
  congr 1
  funext i; simp; ring

theorem along_perp {f g : Fin 2 → ℝ} (hf : normSq f = 2) (hfg : ∑ i, g i * f i = 0) {st : FactorState (Fin 2)} {mu : Fin 2 → ℝ} {lam : ℝ} (h : Along r f st mu lam) (hl : 0 < lam)
    (he : EPS ≤ lam * Real.sqrt 2) (c : ℝ) : Along r f (factorUpdate st (mu + c • g)) (mu + r • c • g) ((1 - r) * lam) := by
  obtain ⟨h1, h2, h3⟩ := along_step hf h hl he (u := c • g)
  refine ⟨h1, h2.trans ?_, h3⟩
  have e : ∑ i, (c • g) i * f i = c * ∑ i, g i * f i := by rw [Finset.mul_sum]; exact Finset.sum_congr rfl fun i _ => by simp; ring
  rw [e, hfg]
  congr 1
  funext i; simp; ring

/-- up and back along `f`: the mean returns, the deviations are `s f` and `-s f` -/
def hop (r s : ℝ) (f : Fin 2 → ℝ) : List (Fin 2 → ℝ) := [s • f, (r * s) • f + (-s) • f]

theorem hop_par (h0 : 0 < r) (h1 : r < 1) {f : Fin 2 → ℝ} (hf : normSq f = 2) {st : FactorState (Fin 2)} {lam s : ℝ} (h : Along r f st 0 lam)
    (hl : 0 < lam) (he : EPS ≤ (1 - r) * lam * Real.sqrt 2) :
    Along r f ((hop r s f).foldl factorUpdate st) 0 ((1 - r) * ((1 - r) * lam + r * s ^ 2 * Real.sqrt 2) + r * s ^ 2 * Real.sqrt 2) := by
  have h2 : 0 < Real.sqrt 2 := Real.sqrt_pos.2 (by norm_num)
  have q : 0 < 1 - r := by linarith
  have k1 := along_par hf h hl (he.trans (by nlinarith [mul_pos hl h2])) s
  rw [zero_add, zero_add] at k1
  have k2 := along_par hf k1 (by positivity) (he.trans (by nlinarith [mul_nonneg (mul_nonneg h0.le (sq_nonneg s)) h2.le])) (-s)
  simp only [hop, List.foldl_cons, List.foldl_nil]
  have e1 : (r * s) • f = r • s • f := by rw [smul_smul]
  rw [e1]
  refine cast ?_ k2
  congr 1
  · funext i; simp
  · ring

theorem hop_perp (h0 : 0 < r) (h1 : r < 1) {f g : Fin 2 → ℝ} (hf : normSq f = 2) (hfg : ∑ i, g i * f i = 0) {st : FactorState (Fin 2)} {lam s : ℝ} (h : Along r f st 0 lam)
    (hl : 0 < lam) (he : EPS ≤ (1 - r) * lam * Real.sqrt 2) : Along r f ((hop r s g).foldl factorUpdate st) 0 ((1 - r) * ((1 - r) * lam)) := by
  have h2 : 0 < Real.sqrt 2 := Real.sqrt_pos.2 (by norm_num)
  have q : 0 < 1 - r := by linarith
  have k1 := along_perp hf hfg h hl (he.trans (by nlinarith [mul_pos hl h2])) s
  rw [zero_add] at k1
  have k2 := along_perp hf hfg k1 (by positivity) he (-s)
  simp only [hop, List.foldl_cons, List.foldl_nil]
  have e1 : (r * s) • g = r • s • g := by rw [smul_smul]
  rw [zero_add] at k1
  rw [e1]
  rw [zero_add] at k2
  refine cast ?_ k2
  congr 1
  funext i; simp

/-- The stream: up and back along (1,1), up and back along (1,-1), and again. -/
noncomputable def crossStream (r s : ℝ) (k : ℕ) : Fin 2 → ℝ :=
  if k % 4 = 0 then s • ![1, 1] else if k % 4 = 1 then (r * s) • ![1, 1] + (-s) • ![1, 1]
  else if k % 4 = 2 then s • ![1, -1] else (r * s) • ![1, -1] + (-s) • ![1, -1]

theorem crossStream_rows (r s : ℝ) (j : ℕ) : firstRows (4 * (j + 1)) (crossStream r s) = firstRows (4 * j) (crossStream r s) ++ (hop r s ![1, 1] ++ hop r s ![1, -1]) := by
  rw [show 4 * (j + 1) = 4 * j + 1 + 1 + 1 + 1 by ring, firstRows_succ, firstRows_succ, firstRows_succ, firstRows_succ]
  have e0 : (4 * j) % 4 = 0 := by omega
  have e1 : (4 * j + 1) % 4 = 1 := by omega
  have e2 : (4 * j + 1 + 1) % 4 = 2 := by omega
  have e3 : (4 * j + 1 + 1 + 1) % 4 = 3 := by omega
  simp [hop, crossStream, e0, e1, e2, e3]

theorem crossStream_bounded (r s : ℝ) (i : Fin 2) : Merge (fun k => crossStream r s k i) (fun k => crossStream r s k i) := by
  refine ⟨⟨|s| + |r * s|, Eventually.of_forall fun k => ?_⟩, by simp⟩
  have h1 : |s| ≤ |s| + |r * s| := by have := abs_nonneg (r * s); linarith
  have h2 : |r * s + -s| ≤ |s| + |r * s| := by rw [add_comm |s|]; exact (abs_add_le _ _).trans (by rw [abs_neg])
  have h3 : |-(r * s) + s| ≤ |s| + |r * s| := by rw [add_comm |s|]; exact (abs_add_le _ _).trans (by rw [abs_neg])
  rw [and_self]
  unfold crossStream
  fin_cases i <;> simp <;> split_ifs <;> simp_all

theorem cov_along {f : Fin 2 → ℝ} (hf : normSq f = 2) {st : FactorState (Fin 2)} {mu : Fin 2 → ℝ} {lam : ℝ} (h : Along r f st mu lam) (hl : 0 < lam)
    (he : EPS < lam * Real.sqrt 2) : toSymmetric (factorCov st) 0 1 = lam / Real.sqrt 2 * (f 0 * f 1) := by
  have h2 : 0 < Real.sqrt 2 := Real.sqrt_pos.2 (by norm_num)
  have key : ∀ i j, i ≠ j → factorCov st i j = lam / Real.sqrt 2 * (f i * f j) := by
    intro i j hij
    unfold factorCov factorPart factorActive
    rw [h.2.1]
    have : decide (EPS < vecNorm (lam • f)) = true := by rw [norm_along hf hl]; exact decide_eq_true he
    simp only [Matrix.add_apply, diagonal_apply_ne _ hij, add_zero, List.filter_cons, this, if_true, List.filter_nil, List.map_cons, List.map_nil, List.sum_cons, List.sum_nil]
    rw [norm_along hf hl]
    simp [outer]
    field_simp
  simp only [toSymmetric, Matrix.of_apply]
  rw [key 0 1 (by decide), key 1 0 (by decide)]
  ring

theorem along_start (pr : FactorParam) (hk : pr.k = 1) {f : Fin 2 → ℝ} (hf : normSq f = 2) {s : ℝ} (hs : 1 ≤ s) :
    Along pr.r f ([s • f, (-s) • f].foldl factorUpdate (factorInit pr)) 0 (s / 2 + 2 * s ^ 2 * Real.sqrt 2) := by
  have h2 : 0 < Real.sqrt 2 := Real.sqrt_pos.2 (by norm_num)
  have hs0 : 0 < s := by linarith
  have e0 : vecNorm (0 : Fin 2 → ℝ) < EPS := by unfold vecNorm EPS; simp [normSq]
  have e1 : ¬ vecNorm (s • f) < EPS := by
    rw [norm_along hf hs0, not_lt]
    have : (1:ℝ) ≤ Real.sqrt 2 := by rw [show (1:ℝ) = Real.sqrt 1 by simp]; exact Real.sqrt_le_sqrt (by norm_num)
    unfold EPS; nlinarith
  have hff : f 0 * f 0 + f 1 * f 1 = 2 := by rw [← hf]; simp [normSq, Fin.sum_univ_two]
  have first : factorUpdate (factorInit pr) (s • f) = { (factorInit pr : FactorState (Fin 2)) with nSamples := 1, mean := s • f, var := fun i => (s * f i) * (s * f i), V := [s • f] } := by
    unfold factorUpdate factorInit
    simp only [hk, Fintype.card_fin]
    simp only [show min 1 2 = 1 from rfl, List.replicate_one, factorLoop, e0, if_true]
    simp
    funext i; simp
  simp only [List.foldl_cons, List.foldl_nil]
  rw [first]
  have hp : ∑ i, ((-s) • f) i * f i = -(2 * s) := by simp [Fin.sum_univ_two]; linear_combination (-s) * hff
  unfold factorUpdate factorInit
  simp only [hk, Fintype.card_fin, show min 1 2 = 1 from rfl, factorLoop, e1, if_false]
  refine ⟨?_, ?_, by norm_num, by norm_num, rfl⟩
  · norm_num; funext i; simp; ring
  · norm_num
    funext i
    rw [norm_along hf hs0]
    have hsq : Real.sqrt 2 * Real.sqrt 2 = 2 := Real.mul_self_sqrt (by norm_num)
    have : (-(s * f 0) - s * f 0) * (s * f 0 / (s * Real.sqrt 2)) + (-(s * f 1) - s * f 1) * (s * f 1 / (s * Real.sqrt 2)) = -(2 * s * Real.sqrt 2) := by
      have e : (-(s * f 0) - s * f 0) * (s * f 0 / (s * Real.sqrt 2)) + (-(s * f 1) - s * f 1) * (s * f 1 / (s * Real.sqrt 2)) = -(2 * s) * (f 0 * f 0 + f 1 * f 1) / Real.sqrt 2 := by
        field_simp; ring
      rw [e, hff, div_eq_iff h2.ne']; linear_combination (2 * s) * hsq
    simp [Fin.sum_univ_two, this]
    ring

/-- C114 (finding): FactorCovariance with one factor and two variables does not forget: which direction its factor follows depends for ever on the first rows.
One instance starts with a step along (1,1) and back, the other with a step along (1,-1) and back; from then on both see the same bounded stream, in which the two
directions alternate. The covariance of the two variables is positive in one and negative in the other, and stays away from zero. -/
theorem C114_factor (pr : FactorParam) (hk : pr.k = 1) (h0 : 0 < pr.r) (h1 : pr.r < 1) (hd : pr.diff = false) : ¬ Forgets (factorCls (Fin 2)) pr := by
  intro hF
  have h2 : 0 < Real.sqrt 2 := Real.sqrt_pos.2 (by norm_num)
  have hsq : Real.sqrt 2 * Real.sqrt 2 = 2 := Real.mul_self_sqrt (by norm_num)
  have q : 0 < 1 - pr.r := by linarith
  set r := pr.r with hr
  set s : ℝ := 1 / (r * (1 - r) ^ 3) with hs
  have hq2 : (1 - r) ^ 2 ≤ 1 := pow_le_one₀ q.le (by linarith)
  have hq3 : (1 - r) ^ 3 ≤ 1 := pow_le_one₀ q.le (by linarith)
  have hrr : r * (1 - r) ^ 3 ≤ 1 := mul_le_one₀ h1.le (by positivity) hq3
  have hs1 : 1 ≤ s := by rw [hs, le_div_iff₀ (by positivity)]; linarith
  have hs0 : 0 < s := by linarith
  set c0 : ℝ := (1 - r) ^ 2 * (r * s ^ 2 * Real.sqrt 2) with hc0
  have c0pos : 0 < c0 := by positivity
  have c0e : (1 - r) ^ 3 * c0 * Real.sqrt 2 = 2 / (r * (1 - r)) := by
    have : (1 - r) ^ 3 * c0 * Real.sqrt 2 = (1 - r) ^ 5 * (r * s ^ 2) * (Real.sqrt 2 * Real.sqrt 2) := by rw [hc0]; ring
    rw [this, hsq, hs]; field_simp
  have lpos : ∀ lam, c0 ≤ lam → 0 < lam := fun lam h => by linarith
  have big2 : ∀ lam, c0 ≤ lam → EPS < (1 - r) ^ 3 * lam * Real.sqrt 2 := by
    intro lam h
    have : (1 - r) ^ 3 * c0 * Real.sqrt 2 ≤ (1 - r) ^ 3 * lam * Real.sqrt 2 := by gcongr
    rw [c0e] at this
    have h3 : 2 ≤ 2 / (r * (1 - r)) := by rw [le_div_iff₀ (by positivity)]; nlinarith
    unfold EPS; norm_num; linarith
  have big1 : ∀ lam, c0 ≤ lam → EPS ≤ (1 - r) * lam * Real.sqrt 2 := by
    intro lam h
    have l0 := lpos lam h
    refine (big2 lam h).le.trans ?_
    have : (1 - r) ^ 3 ≤ 1 - r := by calc (1 - r) ^ 3 = (1 - r) ^ 2 * (1 - r) := by ring
      _ ≤ 1 * (1 - r) := by gcongr
      _ = _ := one_mul _
    gcongr
  have le1 : ∀ z, 0 ≤ z → (1 - r) * z ≤ z := fun z hz => mul_le_of_le_one_left hz (by linarith)
  have nf : normSq (![1, 1] : Fin 2 → ℝ) = 2 := by simp [normSq, Fin.sum_univ_two]; norm_num
  have ng : normSq (![1, -1] : Fin 2 → ℝ) = 2 := by simp [normSq, Fin.sum_univ_two]; norm_num
  have fg : ∑ i, (![1, -1] : Fin 2 → ℝ) i * (![1, 1] : Fin 2 → ℝ) i = 0 := by simp [Fin.sum_univ_two]
  have gf : ∑ i, (![1, 1] : Fin 2 → ℝ) i * (![1, -1] : Fin 2 → ℝ) i = 0 := by simp [Fin.sum_univ_two]
  set x := crossStream r s with hx
  set A : (Fin 2 → ℝ) → ℕ → FactorState (Fin 2) := fun f k => ([s • f, (-s) • f] ++ firstRows k x).foldl factorUpdate (factorInit pr) with hA
  have start : c0 ≤ s / 2 + 2 * s ^ 2 * Real.sqrt 2 := by
    have : c0 ≤ 1 * (1 * s ^ 2 * Real.sqrt 2) := by rw [hc0]; gcongr
    have h3 : 0 ≤ s ^ 2 * Real.sqrt 2 := by positivity
    linarith
  have p1 : 0 < r * s ^ 2 * Real.sqrt 2 := by positivity
  have c0le : c0 ≤ r * s ^ 2 * Real.sqrt 2 := by rw [hc0]; exact mul_le_of_le_one_left p1.le hq2
  have inv1 : ∀ j, ∃ lam, c0 ≤ lam ∧ Along r ![1, 1] (A ![1, 1] (4 * j)) 0 lam := by
    intro j
    induction j with
    | zero => exact ⟨_, start, by simpa [hA, firstRows] using along_start pr hk nf hs1⟩
    | succ j ih =>
      obtain ⟨lam, hl, ih⟩ := ih
      have lp := lpos lam hl
      have k1 := hop_par h0 h1 nf (s := s) ih lp (big1 lam hl)
      generalize e : (1 - r) * ((1 - r) * lam + r * s ^ 2 * Real.sqrt 2) + r * s ^ 2 * Real.sqrt 2 = lam1 at k1
      have lam1_ge : r * s ^ 2 * Real.sqrt 2 ≤ lam1 := by
        have : 0 ≤ (1 - r) * ((1 - r) * lam + r * s ^ 2 * Real.sqrt 2) := by positivity
        linarith
      have k2 := hop_perp h0 h1 nf fg (s := s) k1 (by linarith) (big1 lam1 (by linarith))
      refine ⟨(1 - r) * ((1 - r) * lam1), ?_, ?_⟩
      · rw [hc0]; calc (1 - r) ^ 2 * (r * s ^ 2 * Real.sqrt 2) ≤ (1 - r) ^ 2 * lam1 := by gcongr
          _ = _ := by ring
      · rw [hA]
        simp only []
        rw [hx, crossStream_rows, ← List.append_assoc, List.foldl_append, List.foldl_append]
        exact k2
  have inv2 : ∀ j, ∃ lam, c0 ≤ lam ∧ Along r ![1, -1] (A ![1, -1] (4 * j)) 0 lam := by
    intro j
    induction j with
    | zero => exact ⟨_, start, by simpa [hA, firstRows] using along_start pr hk ng hs1⟩
    | succ j ih =>
      obtain ⟨lam, hl, ih⟩ := ih
      have lp := lpos lam hl
      have k1 := hop_perp h0 h1 ng gf (s := s) ih lp (big1 lam hl)
      have k2 := hop_par h0 h1 ng (s := s) k1 (by positivity) ((big2 lam hl).le.trans (le_of_eq (by ring)))
      refine ⟨(1 - r) * ((1 - r) * ((1 - r) * ((1 - r) * lam)) + r * s ^ 2 * Real.sqrt 2) + r * s ^ 2 * Real.sqrt 2, ?_, ?_⟩
      · have : 0 ≤ (1 - r) * ((1 - r) * ((1 - r) * ((1 - r) * lam)) + r * s ^ 2 * Real.sqrt 2) := by positivity
        linarith
      · rw [hA]
        simp only []
        rw [hx, crossStream_rows, ← List.append_assoc, List.foldl_append, List.foldl_append]
        exact k2
  set calls : (Fin 2 → ℝ) → ℕ → List (Call (Fin 2) ℝ) := fun f k => [.partialFit (.batch ([s • f, (-s) • f] ++ firstRows k x))] with hcalls
  have hu : ∀ f k, used pr.diff (calls f k) = [s • f, (-s) • f] ++ firstRows k x := fun f k => by rw [hd, hcalls]; exact used_batch _
  have hcov := fun f k => run_covariance (factor_lawful (Fin 2)) pr (calls f k) (by show used pr.diff _ ≠ []; rw [hu]; simp)
  have M := (hF _ _ x x (crossStream_bounded r s) (calls ![1, 1]) (calls ![1, -1]) (hu _) (hu _)).2 _ _
    (Eventually.of_forall (hcov ![1, 1])) (Eventually.of_forall (hcov ![1, -1])) 0 1
  have lim := M.lim.comp (tendsto_id.const_mul_atTop' (show 0 < 4 by norm_num) : Tendsto (fun j : ℕ => 4 * j) atTop atTop)
  have hge : ∀ j : ℕ, 2 * c0 / Real.sqrt 2 ≤ toSymmetric (factorCov (A ![1, 1] (4 * j))) 0 1 - toSymmetric (factorCov (A ![1, -1] (4 * j))) 0 1 := by
    intro j
    obtain ⟨lam, hl, i1⟩ := inv1 j
    obtain ⟨lam', hl', i2⟩ := inv2 j
    have b : ∀ lam, c0 ≤ lam → EPS < lam * Real.sqrt 2 := fun lam h => (big2 lam h).trans_le (by
      have := lpos lam h
      calc (1 - r) ^ 3 * lam * Real.sqrt 2 ≤ 1 * lam * Real.sqrt 2 := by gcongr
        _ = _ := by ring)
    rw [cov_along nf i1 (lpos _ hl) (b _ hl), cov_along ng i2 (lpos _ hl') (b _ hl')]
    have : 2 * c0 / Real.sqrt 2 ≤ (lam + lam') / Real.sqrt 2 := by gcongr; linarith
    refine this.trans (le_of_eq ?_)
    simp; ring
  have hA' : ∀ f k, (used ((factorCls (Fin 2)).diff pr) (calls f k)).foldl ((factorCls (Fin 2)).updateState pr) ((factorCls (Fin 2)).initState pr) = A f k := by
    intro f k
    rw [show used ((factorCls (Fin 2)).diff pr) (calls f k) = _ from hu f k]
    rfl
  simp only [hA', Function.comp_def] at lim
  have := ge_of_tendsto' lim hge
  have : 0 < 2 * c0 / Real.sqrt 2 := by positivity
  linarith

example : ¬ Forgets (factorCls (Fin 2)) (⟨1, 1 / 20, false⟩ : FactorParam) := C114_factor _ rfl (by norm_num) (by norm_num) rfl

end Factor

/-! ## What still forgets -/

section Still
variable {ι : Type} [Fintype ι] [DecidableEq ι]

/-- C114: AdaptiveEwaCovariance with `max_r ≤ r`: the cap makes the rate constant. -/
theorem C114_adaptive_capped (L : Lapack) (p : AdaParam) (h0 : 0 < p.maxR) (h1 : p.maxR ≤ 1) (hm : p.maxR ≤ p.r) : Forgets (adaptiveCls L ι) p := by
  refine forgets_of_fold (adaptive_lawful L ι) p fun a b x y h => ?_
  have post : ∀ (a : List (ι → ℝ)) (x : ℕ → ι → ℝ), ∀ᶠ k in atTop,
      (∀ i, (adaFold L p (a ++ firstRows (k + 1) x)).mean i = (1 - p.maxR) * (adaFold L p (a ++ firstRows k x)).mean i + p.maxR * x k i) ∧
      (∀ i j, (adaFold L p (a ++ firstRows (k + 1) x)).cov i j = (1 - p.maxR) * (adaFold L p (a ++ firstRows k x)).cov i j +
        p.maxR * ((x k i - (adaFold L p (a ++ firstRows k x)).mean i) * (x k j - (adaFold L p (a ++ firstRows k x)).mean j))) := by
    intro a x
    filter_upwards [eventually_ge_atTop (ewaBurnN p.r)] with k hk
    obtain ⟨hn, hr, hb, hmx⟩ := ada_inv L p (a ++ firstRows k x)
    rw [firstRows_succ, ← List.append_assoc, adaFold_snoc]
    change (adaFold L p (a ++ firstRows k x)).nSamples = _ at hn
    change (adaFold L p (a ++ firstRows k x)).r = _ at hr
    change (adaFold L p (a ++ firstRows k x)).nBurn = _ at hb
    change (adaFold L p (a ++ firstRows k x)).maxR = _ at hmx
    generalize adaFold L p (a ++ firstRows k x) = s at *
    have hrate : adaRate L s (fun i => x k i - s.mean i) = p.maxR := by
      unfold adaRate; rw [hr, hmx]; exact min_eq_right (hm.trans (le_max_right _ _))
    unfold adaUpdate
    rw [if_neg (by rw [hn, hb, List.length_append, firstRows_length]; omega)]
    simp only [hrate]
    refine ⟨fun i => rfl, fun i j => ?_⟩
    simp only [ewaBlend, Matrix.add_apply, Matrix.smul_apply, outer, Matrix.of_apply, smul_eq_mul]
  have M : ∀ i, Merge (fun k => (adaFold L p (a ++ firstRows k x)).mean i) (fun k => (adaFold L p (b ++ firstRows k y)).mean i) := fun i =>
    Merge.ewa h0 h1 (h i) ((post a x).mono fun k hk => hk.1 i) ((post b y).mono fun k hk => hk.1 i)
  exact ⟨M, fun i j => Merge.ewa h0 h1 (((h i).sub (M i)).mul ((h j).sub (M j))) ((post a x).mono fun k hk => hk.2 i j) ((post b y).mono fun k hk => hk.2 i j)⟩

/-- C114: what does forget in FactorCovariance: `location_`, and with `k = 0` (no factors) everything. -/
theorem C114_factor_location (p : FactorParam) (h0 : 0 < p.r) (h1 : p.r ≤ 1) (a b : List (ι → ℝ)) (x y : ℕ → ι → ℝ)
    (hxy : ∀ i, Merge (fun k => x k i) (fun k => y k i)) (calls calls' : ℕ → List (Call ι ℝ))
    (hu : ∀ k, used p.diff (calls k) = a ++ firstRows k x) (hu' : ∀ k, used p.diff (calls' k) = b ++ firstRows k y) :
    (∀ m m' : ℕ → ι → ℝ, (∀ᶠ k in atTop, ((new (factorCls ι) p).run (calls k)).location = .ok (m k)) →
      (∀ᶠ k in atTop, ((new (factorCls ι) p).run (calls' k)).location = .ok (m' k)) → ∀ i, Merge (fun k => m k i) (fun k => m' k i)) ∧
    (p.k = 0 → ∀ c c' : ℕ → Matrix ι ι ℝ, (∀ᶠ k in atTop, ((new (factorCls ι) p).run (calls k)).covariance = .ok (c k)) →
      (∀ᶠ k in atTop, ((new (factorCls ι) p).run (calls' k)).covariance = .ok (c' k)) → ∀ i j, Merge (fun k => c k i j) (fun k => c' k i j)) := by
  set F : List (ι → ℝ) → FactorState ι := fun xs => xs.foldl factorUpdate (factorInit p) with hF
  have post : ∀ (a : List (ι → ℝ)) (x : ℕ → ι → ℝ), ∀ᶠ k in atTop,
      (∀ i, (F (a ++ firstRows (k + 1) x)).mean i = (1 - p.r) * (F (a ++ firstRows k x)).mean i + p.r * x k i) ∧
      (∀ i, (F (a ++ firstRows (k + 1) x)).var i = (1 - p.r) * (F (a ++ firstRows k x)).var i +
        p.r * ((x k i - (F (a ++ firstRows k x)).mean i) * (x k i - (F (a ++ firstRows k x)).mean i))) := by
    intro a x
    filter_upwards [eventually_ge_atTop (min p.k (Fintype.card ι) + 1)] with k hk
    obtain ⟨hn, hr, hv, hb⟩ := factor_inv p (a ++ firstRows k x)
    have e : F (a ++ firstRows (k + 1) x) = factorUpdate (F (a ++ firstRows k x)) (x k) := by rw [firstRows_succ, ← List.append_assoc, hF]; simp
    rw [e]
    change (F (a ++ firstRows k x)).nSamples = _ at hn
    change (F (a ++ firstRows k x)).r = _ at hr
    change (F (a ++ firstRows k x)).nBurn = _ at hb
    generalize F (a ++ firstRows k x) = s at *
    have hn' : ¬ (s.nSamples + 1 ≤ s.nBurn) := by rw [hn, hb, List.length_append, firstRows_length]; omega
    unfold factorUpdate
    simp only [hn', if_false, hr]
    exact ⟨fun i => trivial, fun i => trivial⟩
  have M : ∀ i, Merge (fun k => (F (a ++ firstRows k x)).mean i) (fun k => (F (b ++ firstRows k y)).mean i) := fun i =>
    Merge.ewa h0 h1 (hxy i) ((post a x).mono fun k hk => hk.1 i) ((post b y).mono fun k hk => hk.1 i)
  have V : ∀ i, Merge (fun k => (F (a ++ firstRows k x)).var i) (fun k => (F (b ++ firstRows k y)).var i) := fun i =>
    Merge.ewa h0 h1 (((hxy i).sub (M i)).mul ((hxy i).sub (M i))) ((post a x).mono fun k hk => hk.2 i) ((post b y).mono fun k hk => hk.2 i)
  constructor
  · intro m m' hm hm' i
    refine (M i).congr ?_ ?_
    · filter_upwards [hm] with k e
      have h2 : m k = (F (used p.diff (calls k))).mean := (run_location_inv (factor_lawful ι) p _ _ e).2
      rw [h2, hu]
    · filter_upwards [hm'] with k e
      have h2 : m' k = (F (used p.diff (calls' k))).mean := (run_location_inv (factor_lawful ι) p _ _ e).2
      rw [h2, hu']
  · intro hk c c' hc hc' i j
    have noV : ∀ xs, (F xs).V = [] := by
      intro xs
      induction xs using List.reverseRecOn with
      | nil => simp [hF, factorInit, hk]
      | append_singleton xs z ih =>
        have e : F (xs ++ [z]) = factorUpdate (F xs) z := by rw [hF]; simp
        rw [e]; unfold factorUpdate; simp only [ih, factorLoop]
    have cov : ∀ xs, toSymmetric (factorCov (F xs)) = diagonal fun i => max ((F xs).var i) 0 := by
      intro xs
      have e : factorCov (F xs) = diagonal fun i => max ((F xs).var i) 0 := by
        unfold factorCov factorPart factorCaptured factorActive
        simp [noV]
      rw [e, toSymmetric_of_symm]
      intro i j
      by_cases hij : i = j
      · rw [hij]
      · rw [diagonal_apply_ne _ hij, diagonal_apply_ne _ (Ne.symm hij)]
    have D : Merge (fun k => (diagonal fun i => max ((F (a ++ firstRows k x)).var i) 0 : Matrix ι ι ℝ) i j)
        (fun k => (diagonal fun i => max ((F (b ++ firstRows k y)).var i) 0 : Matrix ι ι ℝ) i j) := by
      by_cases hij : i = j
      · subst hij
        simp only [diagonal_apply_eq]
        exact (V i).map₁ (continuous_id.max continuous_const)
      · simp only [diagonal_apply_ne _ hij]; exact Merge.const 0
    refine D.congr ?_ ?_
    · filter_upwards [hc] with k e
      have h2 : c k = toSymmetric (factorCov (F (used p.diff (calls k)))) := (run_covariance_inv (factor_lawful ι) p _ _ e).2
      rw [h2, hu, cov]
    · filter_upwards [hc'] with k e
      have h2 : c' k = toSymmetric (factorCov (F (used p.diff (calls' k)))) := (run_covariance_inv (factor_lawful ι) p _ _ e).2
      rw [h2, hu', cov]

example (L : Lapack) (x : ℕ → Fin 2 → ℝ) (hx : ∀ k i, |x k i| ≤ 1) (ε : ℝ) (hε : 0 < ε) :=
  C114_same_stream (adaptive_lawful L (Fin 2)) ⟨1 / 20, 1 / 20, false⟩ (C114_adaptive_capped L ⟨1 / 20, 1 / 20, false⟩ (by norm_num) (by norm_num) le_rfl) x 1 hx
    [.partialFit (.row ![100, 3])] [] ε hε

/-- a FactorCovariance without factors: hypotheses met, attributes exist -/
example : ∃ (a : List (Fin 2 → ℝ)) (calls : ℕ → List (Call (Fin 2) ℝ)), (∀ k, used false (calls k) = a ++ firstRows k fun _ => ![1, 2]) ∧
    ∀ k, ∃ c, ((new (factorCls (Fin 2)) ⟨0, 1 / 20, false⟩).run (calls k)).covariance = .ok c := by
  refine ⟨[![0, 5]], fun k => [.partialFit (.batch ([![0, 5]] ++ firstRows k fun _ => ![1, 2]))], fun k => used_batch _, fun k => ⟨_, run_covariance (factor_lawful _) _ _ ?_⟩⟩
  exact (used_batch _).trans_ne (by simp)

end Still

end Precise
