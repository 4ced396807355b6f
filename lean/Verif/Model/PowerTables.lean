import Verif.Model.MetricPower
import Mathlib.Data.Fin.Tuple.Basic

/-!
# Model of the other tables of `research/metric_power.py`

`projection_power`, `proof_high_dim`, `schur_power`, `pseudo_likelihood_power` and the generators they share. The draws of the random
generator (standard normals, uniforms, signs, permutations, the orthonormal factors of `np.linalg.qr`, the test rows of
`multivariate_normal`) are arguments.
-/

open Matrix

namespace Precise.Power
open Precise

variable {ι : Type} [Fintype ι] [DecidableEq ι] {p : ℕ}

/-! ### Generators -/

/-- `_spd_factor(p, rng, k)` (`metric_power.py:23-25`): `B` the normals, `u` the uniforms. -/
def spdFactor {k : ℕ} (B : Matrix ι (Fin k) ℝ) (u : ι → ℝ) : Matrix ι ι ℝ := B * Bᵀ + diagonal u

/-- `_perturb(cov, eps, rng)` (`metric_power.py:34-39`): `a` the normals. Contract: the symmetric part of `a` is not zero (0/0). -/
noncomputable def perturb (L : Lapack) (cov : Matrix ι ι ℝ) (eps : ℝ) (a : Matrix ι ι ℝ) : Matrix ι ι ℝ :=
  let e := toSymmetric a                                                                 -- line 37
  let e := (frobNorm cov / frobNorm e) • e                                               -- line 38
  projectPd L (cov + eps • e)                                                            -- line 39

/-- The number of columns of `q[:, :k]` for the reduced QR of a `p × k` matrix (`metric_power.py:158-159`). -/
abbrev subDim (p k : ℕ) : ℕ := min p k

/-- `_estimate` of `proof_high_dim` and `_est` of `pseudo_likelihood_power` (`metric_power.py:273-277,408-412`): the matrix and the error
of its bulk eigenvalues. `rng.normal(0, s)` is `s` times a standard normal. -/
noncomputable def tailEstimate {bulk tail : ℕ} (lamBulk : Fin bulk → ℝ) (tailLevel sigBulk sigTail : ℝ)
    (Q : Matrix (Fin (bulk + tail)) (Fin (bulk + tail)) ℝ) (z : Fin bulk → ℝ) (u : Fin tail → ℝ) :
    Matrix (Fin (bulk + tail)) (Fin (bulk + tail)) ℝ × ℝ :=
  let b := fun i => max (lamBulk i * (1 + sigBulk * z i)) (5 / 100)                      -- line 274
  let t := fun j => max (tailLevel * Real.exp (sigTail * u j)) (1 / 10 ^ 4)              -- line 275
  (eigRecompose Q (Fin.append b t), Real.sqrt (∑ i, (b i - lamBulk i) ^ 2))              -- lines 276-277

/-! ### Counting -/

/-- The keys of the tables (`metric_power.py:270,325,399`). The f-strings `proj_k…`, `gamma_…`, `pll_b…` are read as constructors: they
are injective in the number. -/
inductive JudgeName
  | loglik | stein | frobenius
  | proj (k : ℕ)
  | full
  | gamma (x : ℝ)
  | fullLoglik
  | pll (b : ℕ)

/-- `correct[m] += verdict` (`metric_power.py:285-291,353-357,424-427`). -/
def bump {κ : Type} [DecidableEq κ] (correct : κ → ℕ) (v : κ × Bool) : κ → ℕ :=
  Function.update correct v.1 (correct v.1 + if v.2 then 1 else 0)

/-- The loop over the trials and the final division `{m: correct[m] / trials for m in names}`
(`metric_power.py:271,279-292,326,346-358,400,404-428`). -/
noncomputable def table {κ τ : Type} [DecidableEq κ] (names : List κ) (judge : τ → Except PyErr (List (κ × Bool))) (trials : List τ) :
    Except PyErr (List (κ × ℝ)) := do
  let correct ← trials.foldlM (fun correct t => do return (← judge t).foldl bump correct) (fun _ => 0)
  if trials.length = 0 ∧ names ≠ [] then .error .zeroDivision
  else return names.map fun m => (m, (correct m : ℝ) / (trials.length : ℝ))

/-- `score(good) > score(bad)` (`metric_power.py:285-291,353-357,424-425`). -/
noncomputable def verdict {κ α : Type} [LT α] (name : κ) (good bad : Except PyErr α) : Except PyErr (κ × Bool) := do
  let g ← good
  let b ← bad
  return (name, open Classical in decide (b < g))

/-! ### `proof_high_dim` -/

/-- The draws of one turn of the loop of `proof_high_dim` (`metric_power.py:279-290`): the orthonormal factor, the normals of the two
estimates, the test rows, the subspaces for each `k`. -/
structure TailTrial (bulk tail : ℕ) where
  Q : Matrix (Fin (bulk + tail)) (Fin (bulk + tail)) ℝ
  zGood : Fin bulk → ℝ
  uGood : Fin tail → ℝ
  zBad : Fin bulk → ℝ
  uBad : Fin tail → ℝ
  X : List (Fin (bulk + tail) → ℝ)
  subs : (k : ℕ) → List (Matrix (Fin (subDim (bulk + tail) k)) (Fin (bulk + tail)) ℝ)

/-- The settings of `proof_high_dim` (`metric_power.py:254-255`), `lamBulk` the uniforms of line 269. -/
structure TailSetup (bulk : ℕ) where
  lamBulk : Fin bulk → ℝ
  sigGood : ℝ
  sigBad : ℝ
  sigTail : ℝ
  tailLevel : ℝ

/-- `good, bad` of one trial (`metric_power.py:281-283,414-416`). -/
noncomputable def TailTrial.pair {bulk tail : ℕ} (s : TailSetup bulk) (t : TailTrial bulk tail) :
    Matrix (Fin (bulk + tail)) (Fin (bulk + tail)) ℝ × Matrix (Fin (bulk + tail)) (Fin (bulk + tail)) ℝ :=
  let a := tailEstimate s.lamBulk s.tailLevel s.sigGood s.sigTail t.Q t.zGood t.uGood
  let b := tailEstimate s.lamBulk s.tailLevel s.sigBad s.sigTail t.Q t.zBad t.uBad
  open Classical in if a.2 ≤ b.2 then (a.1, b.1) else (b.1, a.1)

/-- `kk = p if k is None else k` (`metric_power.py:200,289,398`). -/
def kOf (p : ℕ) (k : Option ℕ) : ℕ := k.getD p

/-- One turn of the loop of `proof_high_dim` (`metric_power.py:279-291`). -/
noncomputable def highDimTrial {bulk tail : ℕ} (s : TailSetup bulk) (kList : List (Option ℕ)) (t : TailTrial bulk tail) :
    Except PyErr (List (JudgeName × Bool)) := do
  let good := (t.pair s).1
  let bad := (t.pair s).2
  let v1 ← verdict JudgeName.loglik (loglik good t.X) (loglik bad t.X)
  let v2 ← verdict JudgeName.stein (stein good t.X) (stein bad t.X)
  let v3 ← verdict JudgeName.frobenius (.ok (frobenius good t.X)) (.ok (frobenius bad t.X))
  let vs ← kList.mapM fun k =>
    let kk := kOf (bulk + tail) k
    if kk = 0 then .error .zeroDivision                                                  -- `60 // kk`, line 290
    else verdict (JudgeName.proj kk) (kprojLoglik good t.X (t.subs kk)) (kprojLoglik bad t.X (t.subs kk))
  return v1 :: v2 :: v3 :: vs

open Classical in
/-- `proof_high_dim` (`metric_power.py:254-292`) for `p = bulk + tail`. -/
noncomputable def proofHighDim {bulk tail : ℕ} (s : TailSetup bulk) (kList : List (Option ℕ)) (trials : List (TailTrial bulk tail)) :
    Except PyErr (List (JudgeName × ℝ)) :=
  table ([.loglik, .stein, .frobenius] ++ kList.map fun k => .proj (kOf (bulk + tail) k)) (highDimTrial s kList) trials   -- line 270

/-! ### `pseudo_likelihood_power` -/

/-- The sizes `p`, `tail` that `pseudo_likelihood_power` works with (`metric_power.py:396-402`): `np.full` rejects a negative size,
in either regime. `proof_high_dim` has the same lines (268-269) without the first one: `regime := "noisy_tail"`. -/
def pseudoSizes (regime : String) (p bulk : ℕ) : Except PyErr (ℕ × ℕ) :=
  let p := if regime = "clean" then min p 20 else p                                      -- lines 396-397
  if p < bulk then .error .valueError else .ok (p, p - bulk)                             -- lines 401-402

/-- The draws of one clean trial (`metric_power.py:419-423`). -/
structure CleanTrial (p : ℕ) where
  B : Matrix (Fin p) (Fin 3) ℝ
  u : Fin p → ℝ
  nGood : Matrix (Fin p) (Fin p) ℝ
  nBad : Matrix (Fin p) (Fin p) ℝ
  X : List (Fin p → ℝ)

/-- `good, bad` of a clean trial (`metric_power.py:419-421`). -/
noncomputable def CleanTrial.pair (L : Lapack) (epsGood epsBad : ℝ) (t : CleanTrial p) :
    Except PyErr (Matrix (Fin p) (Fin p) ℝ × Matrix (Fin p) (Fin p) ℝ) := do
  let truth := spdFactor t.B t.u
  let a := perturb L truth epsGood t.nGood
  let b := perturb L truth epsBad t.nBad
  let ka ← kl truth a
  let kb ← kl truth b
  return (open Classical in if ka ≤ kb then (a, b) else (b, a))

/-- The judgements of one turn of the loop of `pseudo_likelihood_power` (`metric_power.py:424-427`). -/
noncomputable def pllTrial (L : Lapack) (bs : List ℕ) (good bad : Matrix (Fin p) (Fin p) ℝ) (X : List (Fin p → ℝ)) :
    Except PyErr (List (JudgeName × Bool)) := do
  let v1 ← verdict JudgeName.frobenius (.ok (frobenius good X)) (.ok (frobenius bad X))
  let v2 ← verdict JudgeName.fullLoglik (loglik good X) (loglik bad X)
  let vs ← bs.mapM fun b =>
    if b = 0 then .error .valueError                                                     -- `range(0, p, 0)`, line 375
    else verdict (JudgeName.pll b) (blockPseudoLoglik L good X b) (blockPseudoLoglik L bad X b)
  return v1 :: v2 :: vs

open Classical in
/-- `pseudo_likelihood_power(regime="clean")` (`metric_power.py:386-428`) for its `p` variables. -/
noncomputable def pseudoClean (L : Lapack) (epsGood epsBad : ℝ) (blockSizes : List (Option ℕ)) (trials : List (CleanTrial p)) :
    Except PyErr (List (JudgeName × ℝ)) :=
  let bs := blockSizes.map (kOf p)                                                       -- line 398
  table ([.frobenius, .fullLoglik] ++ bs.map .pll)                                       -- line 399
    (fun t => do let ab ← t.pair L epsGood epsBad; pllTrial L bs ab.1 ab.2 t.X) trials

open Classical in
/-- `pseudo_likelihood_power(regime="noisy_tail")` (`metric_power.py:386-428`) for `p = bulk + tail` variables. -/
noncomputable def pseudoNoisy (L : Lapack) {bulk tail : ℕ} (s : TailSetup bulk) (blockSizes : List (Option ℕ))
    (trials : List (TailTrial bulk tail)) : Except PyErr (List (JudgeName × ℝ)) :=
  let bs := blockSizes.map (kOf (bulk + tail))
  table ([.frobenius, .fullLoglik] ++ bs.map .pll) (fun t => pllTrial L bs (t.pair s).1 (t.pair s).2 t.X) trials

/-! ### `schur_power` -/

/-- The mask checks of `schur_power` (`metric_power.py:323-324,335-336,343`): `block_id` and `canon` have `g * (p // g)` entries, and a
boolean mask of another size than the matrix is an `IndexError`; `p // 0` raises. -/
def schurSizes (p g : ℕ) : Except PyErr ℕ :=
  if g = 0 then .error .zeroDivision                                                     -- line 323
  else if g * (p / g) ≠ p then .error .indexError                                        -- line 343
  else .ok (p / g)

/-- `_within(re)` (`metric_power.py:328-333`): group of variable `i` is `i // gs`. -/
def within (p gs : ℕ) (re : ℝ) : Matrix (Fin p) (Fin p) ℝ :=
  Matrix.of fun i j => if i.1 / gs = j.1 / gs then (if i = j then (1 - re) + re else re) else 0

/-- The draws of one turn of the loop of `schur_power` (`metric_power.py:346-352`): signs are ±1. -/
structure SchurTrial (p : ℕ) where
  perm : Equiv.Perm (Fin p)
  signGood : ℝ
  signBad : ℝ
  nGood : Matrix (Fin p) (Fin p) ℝ
  nBad : Matrix (Fin p) (Fin p) ℝ
  X : List (Fin p → ℝ)

/-- `_make(err, perm)` (`metric_power.py:338-344`). -/
noncomputable def schurMake (L : Lapack) (gs : ℕ) (rho sigCross err : ℝ) (perm : Equiv.Perm (Fin p)) (sign : ℝ)
    (n : Matrix (Fin p) (Fin p) ℝ) : Matrix (Fin p) (Fin p) ℝ × ℝ :=
  let re := rho + sign * err                                                             -- line 339
  let c := within p gs re                                                                -- line 340
  let n := toSymmetric n                                                                 -- line 342
  let c : Matrix (Fin p) (Fin p) ℝ := Matrix.of fun i j => if i.1 / gs ≠ j.1 / gs then c i j + sigCross * n i j else c i j   -- line 343
  ((projectPd L c).submatrix perm perm, |re - rho|)                                      -- line 344

/-- `good, bad` of one trial (`metric_power.py:348-350`). -/
noncomputable def SchurTrial.pair (L : Lapack) (gs : ℕ) (rho sigCross errGood errBad : ℝ) (t : SchurTrial p) :
    Matrix (Fin p) (Fin p) ℝ × Matrix (Fin p) (Fin p) ℝ :=
  let a := schurMake L gs rho sigCross errGood t.perm t.signGood t.nGood
  let b := schurMake L gs rho sigCross errBad t.perm t.signBad t.nBad
  open Classical in if a.2 ≤ b.2 then (a.1, b.1) else (b.1, a.1)

/-- One turn of the loop of `schur_power` (`metric_power.py:346-357`): the blocks of the judge are contiguous in the shuffled order. -/
noncomputable def schurTrial (L : Lapack) (gs : ℕ) (rho sigCross errGood errBad : ℝ) (gammas : List ℝ) (t : SchurTrial p) :
    Except PyErr (List (JudgeName × Bool)) := do
  let good := (t.pair L gs rho sigCross errGood errBad).1
  let bad := (t.pair L gs rho sigCross errGood errBad).2
  let v ← verdict JudgeName.full (loglik good t.X) (loglik bad t.X)
  let vs ← gammas.mapM fun x => verdict (JudgeName.gamma x) (schurLoglik L good t.X (fun i => i.1 / gs) x)
    (schurLoglik L bad t.X (fun i => i.1 / gs) x)
  return v :: vs

open Classical in
/-- `schur_power` (`metric_power.py:308-358`) for `g` groups of `gs` variables (`p = g gs`). -/
noncomputable def schurPower (L : Lapack) (gs : ℕ) (rho sigCross errGood errBad : ℝ) (gammas : List ℝ) (trials : List (SchurTrial p)) :
    Except PyErr (List (JudgeName × ℝ)) :=
  table (JudgeName.full :: gammas.map .gamma) (schurTrial L gs rho sigCross errGood errBad gammas) trials

/-! ### `projection_power` -/

/-- The draws of one turn of the loop of `projection_power` (`metric_power.py:188-201`). -/
structure ProjTrial (p : ℕ) where
  clean : CleanTrial p
  subs : (k : ℕ) → List (Matrix (Fin (subDim p k)) (Fin p) ℝ)

/-- One turn of the loop of `projection_power` (`metric_power.py:188-203`): `none` when the pair is skipped. -/
noncomputable def projTrial (L : Lapack) (epsGood epsBad minGap : ℝ) (kList : List (Option ℕ)) (t : ProjTrial p) :
    Except PyErr (Option (List (Option ℕ × Bool))) := do
  let truth := spdFactor t.clean.B t.clean.u
  let g := perturb L truth epsGood t.clean.nGood
  let b := perturb L truth epsBad t.clean.nBad
  let kg ← kl truth g
  let kb ← kl truth b
  let ab := open Classical in if kg ≤ kb then (g, b) else (b, g)
  if |kg.untopD 0 - kb.untopD 0| < minGap then return none                               -- lines 194-195
  else
    let vs ← kList.mapM fun k =>
      let kk := kOf p k
      if kk = 0 then .error .zeroDivision                                                -- line 201
      else verdict k (kprojLoglik ab.1 t.clean.X (t.subs kk)) (kprojLoglik ab.2 t.clean.X (t.subs kk))
    return some vs

/-- The counters after one turn of the loop of `projection_power` (`metric_power.py:194-203`). -/
def projCount (acc : (Option ℕ → ℕ) × ℕ) : Option (List (Option ℕ × Bool)) → (Option ℕ → ℕ) × ℕ
  | none => acc                                                                          -- `continue`, line 195
  | some vs => (vs.foldl bump acc.1, acc.2 + 1)                                          -- lines 197, 202-203

/-- `projection_power` (`metric_power.py:176-205`); the mean gap is not modelled. -/
noncomputable def projectionPower (L : Lapack) (epsGood epsBad minGap : ℝ) (kList : List (Option ℕ)) (trials : List (ProjTrial p)) :
    Except PyErr (List (Option ℕ × ℝ)) := do
  let (correct, counted) ← trials.foldlM (fun (acc : (Option ℕ → ℕ) × ℕ) t => do
    return projCount acc (← projTrial L epsGood epsBad minGap kList t)) ((fun _ => 0), 0)
  if counted = 0 ∧ kList ≠ [] then .error .zeroDivision                                  -- line 204
  else return kList.map fun k => (k, (correct k : ℝ) / (counted : ℝ))

end Precise.Power
