import Verif.Model.Defaults
import Verif.Props.Shipped
import Verif.Props.Params
import Verif.Props.Emp
import Verif.Props.Ewa
import Verif.Props.Diagonal
import Verif.Props.Shrinkage
import Verif.Props.Robust
import Verif.Props.Dynamic
import Verif.Props.Blocks
import Verif.Props.Schur

/-!
# C86: the shipped estimators out of the box
-/

set_option linter.all false

namespace Precise.Oos

open Obj Spec

variable (L : Lapack) {p : ℕ}

/-- C86: `all_estimators()` with default parameters: the 17 names of the registry, in its order. -/
theorem C86_names : (outOfBox L p).map Prod.fst = estimatorNames := rfl

/-! The documented defaults (C83) as numbers. -/

/-- a float parameter's default -/
noncomputable def dFloat (k : String) : ℝ := match defaultOf k with | .float x => x | _ => 0
/-- an integer parameter's default -/
noncomputable def dInt (k : String) : ℤ := match defaultOf k with | .int n => n | _ => 0
/-- a string parameter's default -/
noncomputable def dStr (k : String) : String := match defaultOf k with | .str x => x | _ => ""

/-- C86: the 17 instances are constructed with the documented defaults (C83): the covariance of `cls()` is that of the class with
`r=0.05`, `n_blocks=4`, `gamma=0.5`, `interpolation="linear"`, `delta=0.1`, `target="constant_correlation"`, `c=2.5`, `max_r=0.5`, `k=2`,
`vol_r=None`, `diff=False`. -/
theorem C86_defaults (c : List (Call (Fin p) ℝ)) :
    (outOfBox L p).map (fun e => (e.1, e.2 c)) =
    [("EmpiricalCovariance", ((new (empiricalCls (Fin p) ℝ) (false : Bool)).run c).covariance),
     ("DiagonalCovariance", ((new (diagonalCls (Fin p) ℝ) (⟨dFloat "r", false⟩ : RParam ℝ)).run c).covariance),
     ("BlockCovariance", ((new (blockCls L p) (⟨dFloat "r", dInt "n_blocks", false⟩ : BlockParam)).run c).covariance),
     ("EwaCovariance", ((new (ewaCls (Fin p) ℝ) (⟨dFloat "r", false⟩ : RParam ℝ)).run c).covariance),
     ("AdaptiveEwaCovariance", ((new (adaptiveCls L (Fin p)) (⟨dFloat "r", dFloat "max_r", false⟩ : AdaParam)).run c).covariance),
     ("LedoitWolfCovariance", ((new (ledoitWolfCls (Fin p) ℝ) (⟨dFloat "r", false⟩ : RParam ℝ)).run c).covariance),
     ("OASCovariance", ((new (oasCls (Fin p) ℝ) (⟨dFloat "r", false⟩ : RParam ℝ)).run c).covariance),
     ("ShrunkCovariance", ((new (shrunkCls (Fin p)) (⟨dFloat "r", dFloat "delta", dStr "target", false⟩ : ShrunkParam)).run c).covariance),
     ("SchurCovariance", ((new (schurCls L p) (⟨dFloat "r", dInt "n_blocks", dFloat "gamma", dStr "interpolation", false⟩ : SchurParam)).run c).covariance),
     ("SchurConditionalCovariance", scCovariance? L ((new (schurCondCls L p) (⟨dFloat "r", dInt "n_blocks", false⟩ : BlockParam)).run c)),
     ("SchurLedoitWolfCovariance", ((new (schurLWCls L p) (⟨dFloat "r", dInt "n_blocks", false⟩ : BlockParam)).run c).covariance),
     ("PartialMomentsCovariance", ((new (partialMomentsCls L (Fin p)) (⟨dFloat "r", false⟩ : RParam ℝ)).run c).covariance),
     ("HuberCovariance", ((new (huberCls L (Fin p)) (⟨dFloat "r", dFloat "c", false⟩ : HuberParam)).run c).covariance),
     ("TylerCovariance", ((new (tylerCls L (Fin p)) (⟨dFloat "r", false⟩ : RParam ℝ)).run c).covariance),
     ("GeodesicEwaCovariance", ((new (geodesicCls L (Fin p)) (⟨dFloat "r", false⟩ : RParam ℝ)).run c).covariance),
     ("DCCCovariance", ((new (dccCls (Fin p)) (⟨dFloat "r", none, false⟩ : DCCParam)).run c).covariance),
     ("FactorCovariance", ((new (factorCls (Fin p)) (⟨(dInt "k").toNat, dFloat "r", false⟩ : FactorParam)).run c).covariance)] := by
  have e1 : dFloat "r" = 1 / 20 := by simp only [dFloat, defaultOf]; norm_num
  have e2 : dFloat "max_r" = 1 / 2 := by simp only [dFloat, defaultOf]; norm_num
  have e3 : dFloat "gamma" = 1 / 2 := by simp only [dFloat, defaultOf]; norm_num
  have e4 : dFloat "delta" = 1 / 10 := by simp only [dFloat, defaultOf]; norm_num
  have e5 : dFloat "c" = 5 / 2 := by simp only [dFloat, defaultOf]; norm_num
  rw [e1, e2, e3, e4, e5]
  rfl

/-- C86: after any calls, `covariance_` of every class with default parameters raises NotFittedError if no row was fed since
the last `fit`; otherwise it is a matrix, except that SchurConditionalCovariance may raise LinAlgError. -/
theorem C86_available (calls : List (Call (Fin p) ℝ)) (e : String × (List (Call (Fin p) ℝ) → Except PyErr (Matrix (Fin p) (Fin p) ℝ)))
    (he : e ∈ outOfBox L p) :
    (rowsSinceFit calls [] = [] → e.2 calls = .error .notFitted) ∧
    (rowsSinceFit calls [] ≠ [] → (∃ c, e.2 calls = .ok c) ∨ (e.1 = "SchurConditionalCovariance" ∧ e.2 calls = .error .linAlgError)) := by
  have gen : ∀ {C : Cls (Fin p) ℝ} (hC : Lawful C) (pr : C.Param) (hd : C.diff pr = false),
      (rowsSinceFit calls [] = [] → ((new C pr).run calls).covariance = .error .notFitted) ∧
      (rowsSinceFit calls [] ≠ [] → ∃ c, ((new C pr).run calls).covariance = .ok c) := by
    intro C hC pr hd
    have hu : used (C.diff pr) calls = rowsSinceFit calls [] := by rw [hd]; rfl
    exact ⟨fun h => (run_unfitted hC pr calls (by rw [hu]; exact h)).1, fun h => run_cov_ok hC pr calls (by rw [hu]; exact h)⟩
  have gen' : ∀ {C : Cls (Fin p) ℝ} (hC : Lawful C) (pr : C.Param) (hd : C.diff pr = false) (P : Prop),
      (rowsSinceFit calls [] = [] → ((new C pr).run calls).covariance = .error .notFitted) ∧
      (rowsSinceFit calls [] ≠ [] → (∃ c, ((new C pr).run calls).covariance = .ok c) ∨ P) :=
    fun hC pr hd P => ⟨(gen hC pr hd).1, fun h => Or.inl ((gen hC pr hd).2 h)⟩
  simp only [outOfBox, List.mem_cons, List.not_mem_nil, or_false] at he
  rcases he with rfl | rfl | rfl | rfl | rfl | rfl | rfl | rfl | rfl | rfl | rfl | rfl | rfl | rfl | rfl | rfl | rfl
  · exact gen' (empirical_lawful _ _) _ rfl _
  · exact gen' (diagonal_lawful _ _) _ rfl _
  · exact gen' (block_lawful _ _) _ rfl _
  · exact gen' (ewa_lawful _ _) _ rfl _
  · exact gen' (adaptive_lawful _ _) _ rfl _
  · exact gen' (ledoitWolf_lawful _ _) _ rfl _
  · exact gen' (oas_lawful _ _) _ rfl _
  · exact gen' (shrunk_lawful _) _ rfl _
  · exact gen' (schur_lawful _ _) _ rfl _
  · have hg := gen (schurCond_lawful L p) (⟨1 / 20, 4, false⟩ : BlockParam) rfl
    generalize hO : (new (schurCondCls L p) (⟨1 / 20, 4, false⟩ : BlockParam)).run calls = O at hg
    show (_ → scCovariance? L _ = _) ∧ (_ → (∃ c, scCovariance? L _ = _) ∨ _ ∧ scCovariance? L _ = _)
    rw [hO]
    unfold scCovariance?
    unfold Obj.covariance at hg
    constructor
    · intro h
      have := hg.1 h
      cases hs : O.fittedState with
      | error e => rw [hs] at this; exact this
      | ok s => rw [hs] at this; cases this
    · intro h
      obtain ⟨c, hc⟩ := hg.2 h
      cases hs : O.fittedState with
      | error e => rw [hs] at hc; cases hc
      | ok s =>
        simp only []
        by_cases hsol : scSolvable O.params s
        · left; rw [if_pos hsol]; exact ⟨_, rfl⟩
        · right; rw [if_neg hsol]; exact ⟨trivial, rfl⟩
  · exact gen' (schurLW_lawful _ _) _ rfl _
  · exact gen' (partialMoments_lawful _ _) _ rfl _
  · exact gen' (huber_lawful _ _) _ rfl _
  · exact gen' (tyler_lawful _ _) _ rfl _
  · exact gen' (geodesic_lawful _ _) _ rfl _
  · exact gen' (dcc_lawful _) _ rfl _
  · exact gen' (factor_lawful _) _ rfl _

/-- C86: out of the box, 15 of the 17 classes report a PSD matrix after every stream; all but ShrunkCovariance and
TylerCovariance. -/
theorem C86_psd (hp : 1 ≤ p) (calls : List (Call (Fin p) ℝ)) (e : String × (List (Call (Fin p) ℝ) → Except PyErr (Matrix (Fin p) (Fin p) ℝ)))
    (he : e ∈ outOfBox L p) (h1 : e.1 ≠ "ShrunkCovariance") (h2 : e.1 ≠ "TylerCovariance") (c : Matrix (Fin p) (Fin p) ℝ)
    (h : e.2 calls = .ok c) : PSD c := by
  haveI : Nonempty (Fin p) := ⟨⟨0, hp⟩⟩
  simp only [outOfBox, List.mem_cons, List.not_mem_nil, or_false] at he
  rcases he with rfl | rfl | rfl | rfl | rfl | rfl | rfl | rfl | rfl | rfl | rfl | rfl | rfl | rfl | rfl | rfl | rfl
  · exact C18_psd _ calls c h
  · exact (C24_psd _ (by norm_num) (by norm_num) calls c h).1
  · exact (C26_block L _ hp calls c h).1.psd
  · exact C21_psd _ (by norm_num) (by norm_num) calls c h
  · exact C35_psd L _ (by norm_num) (by norm_num) (by norm_num) calls c h
  · have hne := (run_covariance_inv (ledoitWolf_lawful (Fin p) ℝ) (⟨1 / 20, false⟩ : RParam ℝ) calls c h).1
    obtain ⟨S, hS⟩ := run_cov_ok (ewa_lawful (Fin p) ℝ) (⟨1 / 20, false⟩ : RParam ℝ) calls hne
    obtain ⟨a, _, _, _, _, hpsd, _⟩ := C27_convex (⟨1 / 20, false⟩ : RParam ℝ) (by norm_num) (by norm_num) calls c S h hS
    exact hpsd
  · have hne := (run_covariance_inv (oas_lawful (Fin p) ℝ) (⟨1 / 20, false⟩ : RParam ℝ) calls c h).1
    obtain ⟨S, hS⟩ := run_cov_ok (ewa_lawful (Fin p) ℝ) (⟨1 / 20, false⟩ : RParam ℝ) calls hne
    exact (C28_invertible (⟨1 / 20, false⟩ : RParam ℝ) (by norm_num) (by norm_num) calls c S h hS).2.1
  · exact absurd rfl h1
  · exact (C30_pd L _ calls c h).psd
  · exact (C32_pd L _ calls c h).psd
  · exact (C31_is_schur L _ calls c h).1.psd
  · exact (C33_pd L _ calls c h).psd
  · exact C34_psd L _ (by norm_num) (by norm_num) calls c h
  · exact absurd rfl h2
  · exact (C37_pd L _ calls c h).2.2
  · exact C38_psd _ (by norm_num) (by norm_num) calls c h
  · exact C39_psd _ calls c h

/-- C86 (finding): the two exceptions are real with the default parameters: after the rows (0,1,1), (0,-1,-1)
ShrunkCovariance, and after the row (1, 1e-6) TylerCovariance, report an indefinite matrix. -/
theorem C86_psd_exceptions :
    (∃ f c, ("ShrunkCovariance", f) ∈ outOfBox L 3 ∧ f [.partialFit (.batch [![0, 1, 1], ![0, -1, -1]])] = .ok c ∧ ¬ PSD c) ∧
    (∃ f c, ("TylerCovariance", f) ∈ outOfBox L 2 ∧ f [.partialFit (.row ![1, 1 / 10 ^ 6])] = .ok c ∧ ¬ PSD c) := by
  constructor
  · obtain ⟨c, h, _, _, hn⟩ := C29_indefinite_witness (1 / 20) (1 / 10) (by norm_num)
    refine ⟨fun k => ((new (shrunkCls (Fin 3)) (⟨1 / 20, 1 / 10, "constant_correlation", false⟩ : ShrunkParam)).run k).covariance,
      c, ?_, h, hn⟩
    unfold outOfBox
    iterate 7 apply List.mem_cons_of_mem
    exact List.mem_cons_self
  · obtain ⟨c, h, _, hn⟩ := C36_indefinite_witness L (1 / 20)
    refine ⟨fun k => ((new (tylerCls L (Fin 2)) (⟨1 / 20, false⟩ : RParam ℝ)).run k).covariance, c, ?_, h, hn⟩
    unfold outOfBox
    iterate 13 apply List.mem_cons_of_mem
    exact List.mem_cons_self

/-- C86: out of the box, five classes report a positive-definite (invertible) matrix from the first row on, whatever the
data (fewer rows than variables and constant variables included). -/
theorem C86_always_pd (hp : 1 ≤ p) (calls : List (Call (Fin p) ℝ)) (e : String × (List (Call (Fin p) ℝ) → Except PyErr (Matrix (Fin p) (Fin p) ℝ)))
    (he : e ∈ outOfBox L p) (c : Matrix (Fin p) (Fin p) ℝ) (h : e.2 calls = .ok c)
    (hname : e.1 ∈ ["BlockCovariance", "SchurCovariance", "SchurConditionalCovariance", "SchurLedoitWolfCovariance", "PartialMomentsCovariance"]) :
    PD c := by
  simp only [outOfBox, List.mem_cons, List.not_mem_nil, or_false] at he
  rcases he with rfl | rfl | rfl | rfl | rfl | rfl | rfl | rfl | rfl | rfl | rfl | rfl | rfl | rfl | rfl | rfl | rfl
  case inr.inr.inl => exact (C26_block L _ hp calls c h).1
  case inr.inr.inr.inr.inr.inr.inr.inr.inl => exact C30_pd L _ calls c h
  case inr.inr.inr.inr.inr.inr.inr.inr.inr.inl => exact C32_pd L _ calls c h
  case inr.inr.inr.inr.inr.inr.inr.inr.inr.inr.inl => exact (C31_is_schur L _ calls c h).1
  case inr.inr.inr.inr.inr.inr.inr.inr.inr.inr.inr.inl => exact C33_pd L _ calls c h
  all_goals simp at hname

end Precise.Oos
