import Verif.Lemmas.State
import Verif.Model.Blocks

/-! Every shipped class is `Lawful`: it counts observations, its state survives serialization, and `diff` is only read
by the base class. -/

set_option linter.all false

namespace Precise

variable {ι K : Type}

syntax "dictsimp" : tactic
macro_rules
  | `(tactic| dictsimp) => `(tactic| simp [DiagState.ofDict, DiagState.asDict, LWState.ofDict, LWState.asDict, PMState.ofDict,
      PMState.asDict, AdaState.ofDict, AdaState.asDict, TylerState.ofDict, TylerState.asDict, DCCState.ofDict, DCCState.asDict,
      FactorState.ofDict, FactorState.asDict, SLWState.ofDict, SLWState.asDict,
      EwaState.ofDict, EwaState.asDict, EmpState.ofDict, EmpState.asDict, Dict.fromlist, Dict.tolist,
      Dict.nat, Dict.vec, Dict.mat, Dict.float, Dict.rows, Dict.mats, Dict.matNan, PyVal.tolist, PyVal.fromlist, List.lookup])

theorem diagonal_lawful (ι K : Type) [Fintype ι] [DecidableEq ι] [Field K] [LinearOrder K] [FloorRing K] :
    Lawful (diagonalCls ι K) where
  n_init _ := rfl
  n_update _ s x := by show (diagUpdate s x).nSamples = s.nSamples + 1; unfold diagUpdate; simp only []; split <;> rfl
  load_dump s _ := by cases s; change DiagState.ofDict (Dict.fromlist (Dict.tolist (DiagState.asDict _))) = _; dictsimp
  diff_withDiff _ _ := rfl
  init_withDiff _ _ := rfl
  update_withDiff _ _ := rfl
  toCov_withDiff _ _ := rfl
  toMean_withDiff _ _ := rfl

theorem ledoitWolf_lawful (ι K : Type) [Fintype ι] [DecidableEq ι] [Field K] [LinearOrder K] [FloorRing K] :
    Lawful (ledoitWolfCls ι K) where
  n_init _ := rfl
  n_update _ s x := by show (lwUpdate s x).nSamples = s.nSamples + 1; unfold lwUpdate; split <;> rfl
  load_dump s _ := by obtain ⟨⟨⟨n, m, c⟩, r, b⟩, q⟩ := s; change LWState.ofDict (Dict.fromlist (Dict.tolist (LWState.asDict _))) = _; dictsimp
  diff_withDiff _ _ := rfl
  init_withDiff _ _ := rfl
  update_withDiff _ _ := rfl
  toCov_withDiff _ _ := rfl
  toMean_withDiff _ _ := rfl

theorem oas_lawful (ι K : Type) [Fintype ι] [DecidableEq ι] [Field K] [LinearOrder K] [FloorRing K] :
    Lawful (oasCls ι K) where
  n_init _ := rfl
  n_update _ s x := ewaUpdate_n s x
  load_dump s _ := EwaState.load_dump s
  diff_withDiff _ _ := rfl
  init_withDiff _ _ := rfl
  update_withDiff _ _ := rfl
  toCov_withDiff _ _ := rfl
  toMean_withDiff _ _ := rfl

theorem shrunk_lawful (ι : Type) [Fintype ι] [DecidableEq ι] : Lawful (shrunkCls ι) where
  n_init _ := rfl
  n_update _ s x := ewaUpdate_n s x
  load_dump s _ := EwaState.load_dump s
  diff_withDiff _ _ := rfl
  init_withDiff _ _ := rfl
  update_withDiff _ _ := rfl
  toCov_withDiff _ _ := rfl
  toMean_withDiff _ _ := rfl

theorem partialMoments_lawful (L : Lapack) (ι : Type) [Fintype ι] [DecidableEq ι] : Lawful (partialMomentsCls L ι) where
  n_init _ := rfl
  n_update _ s x := rfl
  load_dump s _ := by
    cases s; change PMState.ofDict (Dict.fromlist (Dict.tolist (PMState.asDict _))) = _; dictsimp
    funext q; fin_cases q <;> rfl
  diff_withDiff _ _ := rfl
  init_withDiff _ _ := rfl
  update_withDiff _ _ := rfl
  toCov_withDiff _ _ := rfl
  toMean_withDiff _ _ := rfl

theorem huber_lawful (L : Lapack) (ι : Type) [Fintype ι] [DecidableEq ι] : Lawful (huberCls L ι) where
  n_init _ := rfl
  n_update p s x := by show (huberUpdate L p s x).nSamples = s.nSamples + 1; unfold huberUpdate; split <;> rfl
  load_dump s _ := EwaState.load_dump s
  diff_withDiff _ _ := rfl
  init_withDiff _ _ := rfl
  update_withDiff _ _ := rfl
  toCov_withDiff _ _ := rfl
  toMean_withDiff _ _ := rfl

theorem adaptive_lawful (L : Lapack) (ι : Type) [Fintype ι] [DecidableEq ι] : Lawful (adaptiveCls L ι) where
  n_init _ := rfl
  n_update p s x := by show (adaUpdate L s x).nSamples = s.nSamples + 1; unfold adaUpdate; split <;> rfl
  load_dump s _ := by obtain ⟨⟨⟨n, m, c⟩, r, b⟩, q, q'⟩ := s; change AdaState.ofDict (Dict.fromlist (Dict.tolist (AdaState.asDict _))) = _; dictsimp
  diff_withDiff _ _ := rfl
  init_withDiff _ _ := rfl
  update_withDiff _ _ := rfl
  toCov_withDiff _ _ := rfl
  toMean_withDiff _ _ := rfl

theorem tyler_lawful (L : Lapack) (ι : Type) [Fintype ι] [DecidableEq ι] : Lawful (tylerCls L ι) where
  n_init _ := rfl
  n_update _ s x := rfl
  load_dump s _ := by
    obtain ⟨n, m, c, r, b⟩ := s; change TylerState.ofDict (Dict.fromlist (Dict.tolist (TylerState.asDict _))) = _
    cases c <;> dictsimp
  diff_withDiff _ _ := rfl
  init_withDiff _ _ := rfl
  update_withDiff _ _ := rfl
  toCov_withDiff _ _ := rfl
  toMean_withDiff _ _ := rfl

theorem geodesic_lawful (L : Lapack) (ι : Type) [Fintype ι] [DecidableEq ι] : Lawful (geodesicCls L ι) where
  n_init _ := rfl
  n_update p s x := by show (geodesicUpdate L s x).nSamples = s.nSamples + 1; unfold geodesicUpdate; split <;> rfl
  load_dump s _ := EwaState.load_dump s
  diff_withDiff _ _ := rfl
  init_withDiff _ _ := rfl
  update_withDiff _ _ := rfl
  toCov_withDiff _ _ := rfl
  toMean_withDiff _ _ := rfl

theorem dcc_lawful (ι : Type) [Fintype ι] [DecidableEq ι] : Lawful (dccCls ι) where
  n_init _ := rfl
  n_update _ s x := rfl
  load_dump s _ := by cases s; change DCCState.ofDict (Dict.fromlist (Dict.tolist (DCCState.asDict _))) = _; dictsimp
  diff_withDiff _ _ := rfl
  init_withDiff _ _ := rfl
  update_withDiff _ _ := rfl
  toCov_withDiff _ _ := rfl
  toMean_withDiff _ _ := rfl

theorem factor_lawful (ι : Type) [Fintype ι] [DecidableEq ι] : Lawful (factorCls ι) where
  n_init _ := rfl
  n_update _ s x := rfl
  load_dump s _ := by cases s; change FactorState.ofDict (Dict.fromlist (Dict.tolist (FactorState.asDict _))) = _; dictsimp
  diff_withDiff _ _ := rfl
  init_withDiff _ _ := rfl
  update_withDiff _ _ := rfl
  toCov_withDiff _ _ := rfl
  toMean_withDiff _ _ := rfl

theorem schur_lawful (L : Lapack) (p : ℕ) : Lawful (schurCls L p) where
  n_init _ := rfl
  n_update _ s x := ewaUpdate_n s x
  load_dump s _ := EwaState.load_dump s
  diff_withDiff _ _ := rfl
  init_withDiff _ _ := rfl
  update_withDiff _ _ := rfl
  toCov_withDiff _ _ := rfl
  toMean_withDiff _ _ := rfl

theorem schurLW_lawful (L : Lapack) (p : ℕ) : Lawful (schurLWCls L p) where
  n_init _ := rfl
  n_update pr s x := by show (slwUpdate pr s x).nSamples = s.nSamples + 1; unfold slwUpdate; split <;> rfl
  load_dump s _ := by obtain ⟨⟨⟨n, m, c⟩, r, b⟩, q⟩ := s; change SLWState.ofDict (Dict.fromlist (Dict.tolist (SLWState.asDict _))) = _; dictsimp
  diff_withDiff _ _ := rfl
  init_withDiff _ _ := rfl
  update_withDiff _ _ := rfl
  toCov_withDiff _ _ := rfl
  toMean_withDiff _ _ := rfl

theorem schurCond_lawful (L : Lapack) (p : ℕ) : Lawful (schurCondCls L p) where
  n_init _ := rfl
  n_update _ s x := ewaUpdate_n s x
  load_dump s _ := EwaState.load_dump s
  diff_withDiff _ _ := rfl
  init_withDiff _ _ := rfl
  update_withDiff _ _ := rfl
  toCov_withDiff _ _ := rfl
  toMean_withDiff _ _ := rfl

/-- In every reachable state the block sub-states agree on the counters that `get_state` keeps only once. -/
theorem block_subs {L : Lapack} {p : ℕ} (s : (blockCls L p).State) (h : Reachable (blockCls L p) s) :
    ∀ k : Fin (BlockState.nb s), (BlockState.subs s k).nSamples = BlockState.nSamples s ∧
      (BlockState.subs s k).r = BlockState.r s ∧ (BlockState.subs s k).nBurn = BlockState.nBurn s := by
  induction h with
  | init pr => exact fun k => ⟨rfl, rfl, rfl⟩
  | step pr s x _ ih =>
    intro k
    change BlockState p at s
    obtain ⟨h1, h2, h3⟩ := ih k
    refine ⟨?_, ?_, ?_⟩
    · show (ewaUpdate (s.subs k) _).nSamples = s.nSamples + 1
      rw [ewaUpdate_n, h1]
    · show (ewaUpdate (s.subs k) _).r = s.r
      rw [ewaUpdate_r, h2]
    · show (ewaUpdate (s.subs k) _).nBurn = s.nBurn
      rw [ewaUpdate_nBurn, h3]

theorem block_lawful (L : Lapack) (p : ℕ) : Lawful (blockCls L p) where
  n_init _ := rfl
  n_update _ s x := rfl
  load_dump s hs := by
    have h := block_subs s hs
    obtain ⟨n, r, b, nb, subs⟩ := s
    show BlockState.mk _ _ _ _ _ = _
    congr 1
    funext k
    obtain ⟨h1, h2, h3⟩ := h k
    simp only at h1 h2 h3
    rcases e : subs k with ⟨⟨n', m', c'⟩, r', b'⟩
    rw [e] at h1 h2 h3
    simp only at h1 h2 h3
    subst h1 h2 h3
    show EwaState.mk (EmpState.mk _ (subs k).mean (subs k).cov) _ _ = _
    rw [e]
    rfl
  diff_withDiff _ _ := rfl
  init_withDiff _ _ := rfl
  update_withDiff _ _ := rfl
  toCov_withDiff _ _ := rfl
  toMean_withDiff _ _ := rfl

end Precise
