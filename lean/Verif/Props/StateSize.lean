import Verif.Props.Serial
import Verif.Props.Dynamic

/-!
# C103: no growing buffers

README.md:33: "Every estimator is truly online — a constant amount of work per observation, no growing buffers." The number of values
in `get_state()` does not depend on how many observations were seen.
-/

set_option linter.all false

namespace Precise

open Spec Obj

/-- Specification: how many numbers `json.dumps` writes for a value of a state dict over `d` variables. -/
def numbersIn (d : ℕ) {ι K : Type} : PyVal ι K → ℕ
  | .int _ | .float _ => 1
  | .vec _ | .lvec _ => d
  | .mat _ | .nanMat | .lmat _ | .lnanMat => d * d
  | .rows v | .lrows v => v.length * d
  | .mats v | .lmats v => v.length * (d * d)

/-- Specification: how many numbers a state dict holds. -/
def dictNumbers (d : ℕ) {ι K : Type} (s : Dict ι K) : ℕ := (s.map fun kv => numbersIn d kv.2).sum

theorem numbersIn_tolist (d : ℕ) {ι K : Type} (v : PyVal ι K) : numbersIn d v.tolist = numbersIn d v := by
  cases v <;> rfl

theorem dictNumbers_tolist (d : ℕ) {ι K : Type} (s : Dict ι K) : dictNumbers d s.tolist = dictNumbers d s := by
  unfold dictNumbers Dict.tolist
  rw [List.map_map]
  congr 1
  exact List.map_congr_left fun kv _ => numbersIn_tolist d kv.2

/-- A property of the state kept by every update holds of every state an object reaches. -/
theorem state_inv {ι : Type} [Fintype ι] {C : Cls ι ℝ} (p : C.Param) (Inv : C.State → Prop) (h0 : Inv (C.initState p))
    (hs : ∀ s x, Inv s → Inv (C.updateState p s x)) (calls : List (Call ι ℝ)) (s : C.State)
    (h : ((Obj.new C p).run calls).state = some s) : Inv s := by
  rw [run_new_state] at h
  generalize effective (C.diff p) (rowsSinceFit calls []) = xs at h
  have key : ∀ (xs : List (ι → ℝ)) (s0 : C.State), Inv s0 → Inv (xs.foldl (C.updateState p) s0) := by
    intro xs
    induction xs with
    | nil => intro s0 h; exact h
    | cons x xs ih => intro s0 h; exact ih _ (hs _ x h)
  cases xs with
  | nil => simp at h
  | cons x xs =>
    simp at h
    rw [← h]
    exact key xs _ (hs _ x h0)

/-- How many numbers the state dict of each estimator holds, for `d` variables. -/
def stateNumbers (d : ℕ) (k : ℕ) : String → ℕ
  | "EmpiricalCovariance" => d * d + d + 2
  | "DiagonalCovariance" => 2 * d + 4
  | "LedoitWolfCovariance" | "SchurLedoitWolfCovariance" => d * d + d + 5
  | "AdaptiveEwaCovariance" => d * d + d + 6
  | "PartialMomentsCovariance" => 4 * (d * d) + d + 4
  | "DCCCovariance" => d * d + 2 * d + 5
  | "FactorCovariance" => min k d * d + 2 * d + 5
  | _ => d * d + d + 4

/-- C103: for every shipped estimator but FactorCovariance and BlockCovariance (below), after any history, `get_state()` holds exactly the
stated number of values, which depends on the number of variables only. -/
theorem C103_state_numbers (L : Lapack) (d : ℕ) (name : String) (C : Cls (Fin d) ℝ) (hC : (name, C) ∈ registry L d)
    (hb : name ≠ "BlockCovariance") (hf : name ≠ "FactorCovariance") :
    ∃ h : C.Dump = Dict (Fin d) ℝ, ∀ (p : C.Param) (calls : List (Call (Fin d) ℝ)) (s : C.Dump),
      ((Obj.new C p).run calls).getState = some s → dictNumbers d (h.mp s) = stateNumbers d 0 name := by
  simp only [registry, List.mem_cons, List.not_mem_nil, or_false, Prod.mk.injEq] at hC
  rcases hC with ⟨rfl, rfl⟩ | ⟨rfl, rfl⟩ | ⟨rfl, rfl⟩ | ⟨rfl, rfl⟩ | ⟨rfl, rfl⟩ | ⟨rfl, rfl⟩ | ⟨rfl, rfl⟩ | ⟨rfl, rfl⟩ |
    ⟨rfl, rfl⟩ | ⟨rfl, rfl⟩ | ⟨rfl, rfl⟩ | ⟨rfl, rfl⟩ | ⟨rfl, rfl⟩ | ⟨rfl, rfl⟩ | ⟨rfl, rfl⟩ | ⟨rfl, rfl⟩ | ⟨rfl, rfl⟩
  case inr.inr.inl => exact absurd rfl hb
  case inr.inr.inr.inr.inr.inr.inr.inr.inr.inr.inr.inr.inr.inr.inr.inr => exact absurd rfl hf
  all_goals
    refine ⟨rfl, fun p calls s hs => ?_⟩
    unfold Obj.getState at hs
    obtain ⟨st, -, rfl⟩ := Option.map_eq_some_iff.1 hs
    refine (dictNumbers_tolist d _).trans ?_
    first
      | (have : ∀ st : TylerState (Fin d), dictNumbers d (TylerState.asDict st) = d * d + d + 4 := by
           intro st
           simp only [TylerState.asDict]
           cases st.shape <;> simp [dictNumbers, numbersIn] <;> ring
         exact this st)
      | (simp [dictNumbers, numbersIn, stateNumbers, EmpState.asDict, EwaState.asDict, DiagState.asDict, LWState.asDict, PMState.asDict,
          AdaState.asDict, DCCState.asDict, SLWState.asDict] <;> ring)

/-- C103: FactorCovariance with `k` factors keeps `min(k, d)·d + 2d + 5` values: no `d × d` matrix, however long the stream. -/
theorem C103_factor_numbers (d : ℕ) (p : FactorParam) (calls : List (Call (Fin d) ℝ)) (s : Dict (Fin d) ℝ)
    (hs : ((Obj.new (factorCls (Fin d)) p).run calls).getState = some s) : dictNumbers d s = stateNumbers d p.k "FactorCovariance" := by
  unfold Obj.getState at hs
  obtain ⟨st, hst, rfl⟩ := Option.map_eq_some_iff.1 hs
  have hV : st.V.length = min p.k d := by
    refine state_inv (C := factorCls (Fin d)) p (fun s => s.V.length = min p.k d) ?_ ?_ calls st hst
    · show (List.replicate (min p.k (Fintype.card (Fin d))) (0 : Fin d → ℝ)).length = _
      simp
    · intro s x h
      show (factorLoop _ s.V _).length = _
      rw [(factorLoop_facts _ _ _).1]; exact h
  refine (dictNumbers_tolist d _).trans ?_
  simp [dictNumbers, numbersIn, stateNumbers, FactorState.asDict, hV]
  ring

/-- How many numbers `BlockCovariance.get_state()` returns: four scalars, the slices (two each) and a mean and a covariance per block. -/
def blockNumbers {d : ℕ} (s : BlockDump d) : ℕ :=
  4 + 2 * s.nb + ∑ k : Fin s.nb, (Fintype.card (BlockIx d s.nb k) + Fintype.card (BlockIx d s.nb k) ^ 2)

/-- C103: BlockCovariance keeps the same number of values after any two histories, one mean and one covariance per block. -/
theorem C103_block_numbers (L : Lapack) (d : ℕ) (p : BlockParam) (calls : List (Call (Fin d) ℝ)) (s : BlockDump d)
    (hs : ((Obj.new (blockCls L d) p).run calls).getState = some s) :
    s.nb = nbClamped p.nBlocks d ∧
    blockNumbers s = 4 + 2 * nbClamped p.nBlocks d +
      ∑ k : Fin (nbClamped p.nBlocks d), (Fintype.card (BlockIx d (nbClamped p.nBlocks d) k) + Fintype.card (BlockIx d (nbClamped p.nBlocks d) k) ^ 2) := by
  unfold Obj.getState at hs
  obtain ⟨st, hst, rfl⟩ := Option.map_eq_some_iff.1 hs
  have hn : st.nb = nbClamped p.nBlocks d :=
    state_inv (C := blockCls L d) p (fun s => s.nb = nbClamped p.nBlocks d) rfl (fun s x h => h) calls st hst
  refine ⟨hn, ?_⟩
  show 4 + 2 * st.nb + ∑ k : Fin st.nb, (Fintype.card (BlockIx d st.nb k) + Fintype.card (BlockIx d st.nb k) ^ 2) = _
  rw [hn]

/-- C103: one bound for all of them: at most `4d² + 2d + 6` values. -/
theorem C103_bound (d k : ℕ) (name : String) : stateNumbers d k name ≤ 4 * d ^ 2 + 2 * d + 6 := by
  have h : min k d * d ≤ d * d := Nat.mul_le_mul_right d (min_le_right k d)
  unfold stateNumbers
  split <;> nlinarith

/-- C103: besides the state dict, the estimator itself remembers at most one row (`_prev_x`), and only with `diff=True`. -/
theorem C103_one_row {ι : Type} [Fintype ι] (C : Cls ι ℝ) (p : C.Param) (calls : List (Call ι ℝ)) :
    ((Obj.new C p).run calls).prevX = if C.diff p then (rowsSinceFit calls []).getLast? else none := by
  rw [(run_new p calls).2.2, feedRows_prevX]
  show (if C.diff p then _ else none) = _
  split
  · show (rowsSinceFit calls []).getLast?.or none = _
    simp
  · rfl

/-! ## Non-vacuity -/

-- after any number of rows there is a state dict, so the theorems speak about a real one
example (x y : Fin 2 → ℝ) : ∃ s : Dict (Fin 2) ℝ, ((Obj.new (factorCls (Fin 2)) (⟨5, 1 / 20, false⟩ : FactorParam)).run
    [.partialFit (.batch [x, y, x])]).getState = some s ∧ dictNumbers 2 s = 13 :=
  ⟨_, rfl, C103_factor_numbers 2 (⟨5, 1 / 20, false⟩ : FactorParam) [.partialFit (.batch [x, y, x])] _ rfl⟩

example (L : Lapack) (x y : Fin 3 → ℝ) : ∃ s : Dict (Fin 3) ℝ, ((Obj.new (partialMomentsCls L (Fin 3)) (⟨1 / 20, false⟩ : RParam ℝ)).run
    [.partialFit (.batch [x, y, x])]).getState = some s ∧ dictNumbers 3 s = 43 := by
  obtain ⟨h, H⟩ := C103_state_numbers L 3 "PartialMomentsCovariance" (partialMomentsCls L (Fin 3)) (by simp [registry]) (by decide) (by decide)
  exact ⟨_, rfl, H (⟨1 / 20, false⟩ : RParam ℝ) [.partialFit (.batch [x, y, x])] _ rfl⟩

end Precise
