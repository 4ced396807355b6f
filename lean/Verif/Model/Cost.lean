import Verif.Model.Blocks

/-!
# The update functions with their floating-point operations counted

`Tick α` is a result with the number of elementary operations (`+ - * /`, comparisons, square roots, copied floats) spent on it.
Every numpy expression is split into its elementary array operations, in the order in which Python evaluates it: an operation on
arrays of `d` (or `d × d`) floats costs `d` (or `d²`). The value computed is proved to be that of the update function of the exact model
(`Props/Cost.lean`). Not counted: Python's own overhead (dict creation, function calls), a constant per line.
-/

namespace Precise

/-- A value and the number of elementary operations spent on it (used for the array expressions of `_state.py:38-42,74-76`). -/
structure Tick (α : Type) where
  val : α
  ops : ℕ

namespace Tick

/-- Sequencing of statements (`_state.py:38-43` and so on): the operations add up. -/
instance : Monad Tick where
  pure a := ⟨a, 0⟩
  bind t f := ⟨(f t.val).val, t.ops + (f t.val).ops⟩

variable {ι K : Type} [Fintype ι]

/-- One elementary operation on floats (such as `1 - r`, `_state.py:75`). -/
def scalar {α : Type} (v : α) : Tick α := ⟨v, 1⟩

/-- One elementary numpy operation on arrays of shape `(d,)` (such as `x - s["mean"]`, `_state.py:39`). -/
def vec (v : ι → K) : Tick (ι → K) := ⟨v, Fintype.card ι⟩

/-- One elementary numpy operation on arrays of shape `(d, d)` (such as `np.outer`, `_state.py:42`). -/
def mat (m : Matrix ι ι K) : Tick (Matrix ι ι K) := ⟨m, Fintype.card ι ^ 2⟩

/-- `u @ v` (`factor.py:68`): `d` products and their sum. -/
def dot [Mul K] [AddCommMonoid K] (u v : ι → K) : Tick K := ⟨∑ i, u i * v i, 2 * Fintype.card ι⟩

/-- `np.linalg.norm(v)` (`factor.py:63`): a dot product and a square root. -/
noncomputable def norm (v : ι → ℝ) : Tick ℝ := ⟨vecNorm v, 2 * Fintype.card ι + 1⟩

/-- A loop over `n` independent parts (`block_covariance.py:57-60`). -/
def all {n : ℕ} {α : Fin n → Type} (f : (k : Fin n) → Tick (α k)) : Tick ((k : Fin n) → α k) :=
  ⟨fun k => (f k).val, ∑ k, (f k).ops⟩

end Tick

open Tick

variable {ι K : Type} [Fintype ι]

/-- `emp_update` (`_state.py:32-43`), counted. -/
def empUpdateT [Field K] (s : EmpState ι K) (x : ι → K) : Tick (EmpState ι K) := do
  let count ← scalar (s.nSamples + 1)                                        -- line 38
  let deltaPrev ← vec fun i => x i - s.mean i                                -- line 39
  let q ← vec fun i => deltaPrev i / (count : K)                             -- line 40: delta_prev / count
  let mean ← vec fun i => s.mean i + q i                                     -- line 40
  let e ← vec fun i => x i - mean i                                          -- line 41: x - mean
  let weighted ← vec fun i => e i / (count : K)                              -- line 41
  let m ← scalar (count - 1)                                                 -- line 42: count - 1
  let a ← mat (Matrix.of fun i j => s.cov i j * (m : K))                     -- line 42: s["cov"] * (count - 1)
  let b ← mat (Matrix.of fun i j => a i j / (count : K))                     -- line 42: ... / count
  let o ← mat (outer deltaPrev weighted)                                     -- line 42: np.outer
  let cov ← mat (b + o)                                                      -- line 42
  return { nSamples := count, mean := mean, cov := cov }                     -- line 43

/-- The branch after the burn-in of `ewa_update` (`_state.py:73-84`), counted. -/
def ewaBlendT [Field K] (r : K) (s : EmpState ι K) (x : ι → K) : Tick (EmpState ι K) := do
  let delta ← vec fun i => x i - s.mean i                                    -- line 74
  let k ← scalar (1 - r)                                                     -- line 75
  let a ← vec fun i => k * s.mean i
  let b ← vec fun i => r * x i
  let mean ← vec fun i => a i + b i
  let k' ← scalar (1 - r)                                                    -- line 76
  let c ← mat (k' • s.cov)
  let o ← mat (outer delta delta)
  let o' ← mat (r • o)
  let cov ← mat (c + o')
  let n ← scalar (s.nSamples + 1)                                            -- line 79
  return { nSamples := n, mean := mean, cov := cov }

/-- `ewa_update` (`_state.py:62-84`), counted; the comparison of line 68 costs one. -/
def ewaUpdateT [Field K] (s : EwaState ι K) (x : ι → K) : Tick (EwaState ι K) := do
  let burning ← scalar (decide (s.nSamples < s.nBurn))                       -- line 68
  if burning then
    let out ← empUpdateT s.toEmpState x                                      -- lines 69-72
    return { s with toEmpState := out }
  else
    let out ← ewaBlendT s.r s.toEmpState x                                   -- lines 73-84
    return { s with toEmpState := out }

/-- `DiagonalCovariance._update_state` (`diagonal.py:38-55`), counted. -/
def diagUpdateT [Field K] (s : DiagState ι K) (x : ι → K) : Tick (DiagState ι K) := do
  let n ← scalar (s.nSamples + 1)                                            -- line 39
  let dev ← vec fun i => x i - s.mean i                                      -- line 40
  let sq ← vec fun i => dev i * dev i                                        -- line 41
  let burning ← scalar (decide (n ≤ s.nBurn))                                -- line 42
  if burning then
    let a ← vec fun i => dev i / (n : K)                                     -- line 43
    let mean ← vec fun i => s.mean i + a i
    let b ← vec fun i => sq i - s.var i                                      -- line 44
    let c ← vec fun i => b i / (n : K)
    let var ← vec fun i => s.var i + c i
    return { s with nSamples := n, mean := mean, var := var }
  else
    let k ← scalar (1 - s.r)                                                 -- line 46
    let a ← vec fun i => k * s.mean i
    let b ← vec fun i => s.r * x i
    let mean ← vec fun i => a i + b i
    let k' ← scalar (1 - s.r)                                                -- line 47
    let c ← vec fun i => k' * s.var i
    let e ← vec fun i => s.r * sq i
    let var ← vec fun i => c i + e i
    return { s with nSamples := n, mean := mean, var := var }

/-- The loop `for j in range(k)` (`factor.py:62-70`), counted. -/
noncomputable def factorLoopT (lr : ℝ) : List (ι → ℝ) → (ι → ℝ) → Tick (List (ι → ℝ))
  | [], _ => pure []
  | v :: vs, u => do
    let nrm ← Tick.norm v                                                    -- line 63
    let small ← scalar (open Classical in decide (nrm < EPS))                -- line 64
    if small then
      let v' ← vec u                                                         -- line 65 (a copy)
      return v' :: vs                                                        -- line 66
    else
      let vhat ← vec fun i => v i / nrm                                      -- line 67
      let proj ← Tick.dot u vhat                                             -- line 68
      let k ← scalar (1 - lr)                                                -- line 69
      let a ← vec fun i => k * v i
      let g ← scalar (lr * proj)
      let b ← vec fun i => g * u i
      let v' ← vec fun i => a i + b i
      let c ← vec fun i => proj * vhat i                                     -- line 70
      let u' ← vec fun i => u i - c i
      let rest ← factorLoopT lr vs u'
      return v' :: rest

/-- `FactorCovariance._update_state` (`factor.py:44-81`), counted; `np.array(s["V"])` and `dev.copy()` copy `k d` and `d` floats. -/
noncomputable def factorUpdateT (s : FactorState ι) (x : ι → ℝ) : Tick (FactorState ι) := do
  let n ← scalar (s.nSamples + 1)                                            -- line 45
  let dev ← vec fun i => x i - s.mean i                                      -- line 48
  let sq ← vec fun i => dev i * dev i                                        -- line 49
  let burning ← scalar (decide (n ≤ s.nBurn))                                -- line 50
  let (lr, mean, var) ← (if burning then do
      let lr ← scalar (1 / (n : ℝ))                                          -- line 52
      let e ← vec fun i => x i - s.mean i                                    -- line 53
      let e' ← vec fun i => e i / (n : ℝ)
      let mean ← vec fun i => s.mean i + e' i
      let b ← vec fun i => sq i - s.var i                                    -- line 54
      let c ← vec fun i => b i / (n : ℝ)
      let var ← vec fun i => s.var i + c i
      return (lr, mean, var)
    else do
      let k ← scalar (1 - s.r)                                               -- line 57
      let a ← vec fun i => k * s.mean i
      let b ← vec fun i => s.r * x i
      let mean ← vec fun i => a i + b i
      let k' ← scalar (1 - s.r)                                              -- line 58
      let c ← vec fun i => k' * s.var i
      let e ← vec fun i => s.r * sq i
      let var ← vec fun i => c i + e i
      return (s.r, mean, var) : Tick (ℝ × (ι → ℝ) × (ι → ℝ)))
  let V ← (⟨s.V, s.V.length * Fintype.card ι⟩ : Tick (List (ι → ℝ)))         -- line 60
  let u ← vec dev                                                            -- line 61
  let V' ← factorLoopT lr V u                                                -- lines 62-70
  return { s with nSamples := n, mean := mean, var := var, V := V' }         -- lines 72-81

/-- `BlockCovariance._update_state` (`block_covariance.py:55-61`), counted. -/
noncomputable def blockUpdateT {p : ℕ} (s : BlockState p) (x : Fin p → ℝ) : Tick (BlockState p) := do
  let subs ← Tick.all fun k => ewaUpdateT (s.subs k) (fun i => x i.1)        -- lines 57-60
  let n ← scalar (s.nSamples + 1)                                            -- line 61
  return { s with nSamples := n, subs := subs }

/-! ## The other update functions -/

open scoped Matrix

/-- How many operations LAPACK spends on a `d × d` matrix (`_linalg.py:63,81,84,102,108`): any function of `d` (the usual choice is cubic). -/
structure LapackOps where
  inv : ℕ → ℕ
  pinv : ℕ → ℕ
  eigh : ℕ → ℕ

/-- `np.sum` of a `d × d` array (`ledoitwolf.py:43`, `schur_ledoit_wolf.py:68`): `d²` additions. -/
def Tick.sum2 [AddCommMonoid K] (m : Matrix ι ι K) : Tick K := ⟨∑ i, ∑ j, m i j, Fintype.card ι ^ 2⟩

/-- `a @ b` of two `d × d` arrays (`_linalg.py:104-112`): `2 d³` operations. -/
def Tick.mm [Mul K] [AddCommMonoid K] (a b : Matrix ι ι K) : Tick (Matrix ι ι K) := ⟨a * b, 2 * Fintype.card ι ^ 3⟩

/-- `to_symmetric(a)` (`_linalg.py:18-19`): a sum and a division. -/
def toSymmetricT [Field K] (a : Matrix ι ι K) : Tick (Matrix ι ι K) := do
  let b ← mat (a + aᵀ)
  mat (Matrix.of fun i j => b i j / 2)

/-- `LedoitWolfCovariance._update_state` (`ledoitwolf.py:34-52`), counted. -/
def lwUpdateT [Field K] (s : LWState ι K) (x : ι → K) : Tick (LWState ι K) := do
  let burning ← scalar (decide (s.nSamples < s.nBurn))                                   -- line 35
  if burning then
    let out ← empUpdateT s.toEmpState x                                                  -- lines 36-38
    return { s with toEmpState := out }
  else
    let delta ← vec fun i => x i - s.mean i                                              -- line 41
    let scatter ← mat (outer delta delta)                                                -- line 42
    let e ← mat (scatter - s.cov)                                                        -- line 43
    let e2 ← mat (Matrix.of fun i j => e i j ^ 2)
    let t ← Tick.sum2 e2
    let q ← scalar (t / (Fintype.card ι : K))
    let n ← scalar (s.nSamples + 1)                                                      -- line 46
    let k ← scalar (1 - s.r)                                                             -- line 47
    let a ← vec fun i => k * s.mean i
    let b ← vec fun i => s.r * x i
    let mean ← vec fun i => a i + b i
    let k' ← scalar (1 - s.r)                                                            -- line 48
    let c ← mat (k' • s.cov)
    let o' ← mat (s.r • scatter)
    let cov ← mat (c + o')
    let k'' ← scalar (1 - s.r)                                                           -- line 51
    let g ← scalar (k'' * s.piBar)
    let g' ← scalar (s.r * q)
    let piBar ← scalar (g + g')
    return { s with nSamples := n, mean := mean, cov := cov, piBar := piBar }

/-- `_cross_mask(p)` (`schur_ledoit_wolf.py:45-50`), counted: `p` block numbers are written, `p²` pairs compared. -/
def crossMaskT (p nb : ℕ) : Tick (Fin p → Fin p → Bool) :=
  ⟨fun i j => decide (blockId p nb i ≠ blockId p nb j), p + p ^ 2⟩

/-- `SchurLedoitWolfCovariance._update_state` (`schur_ledoit_wolf.py:59-77`), counted. -/
noncomputable def slwUpdateT {p : ℕ} (pr : BlockParam) (s : SLWState (Fin p)) (x : Fin p → ℝ) : Tick (SLWState (Fin p)) := do
  let burning ← scalar (decide (s.nSamples < s.nBurn))                                   -- line 60
  if burning then
    let out ← empUpdateT s.toEmpState x                                                  -- lines 61-63
    return { s with toEmpState := out }
  else
    let cross ← crossMaskT p (schurNb pr.nBlocks p)                                      -- line 65
    let delta ← vec fun i => x i - s.mean i                                              -- line 66
    let scatter ← mat (outer delta delta)                                                -- line 67
    let e ← mat (scatter - s.cov)                                                        -- line 68
    let e2 ← mat (Matrix.of fun i j => e i j ^ 2)
    let sel ← mat (Matrix.of fun i j => if cross i j then e2 i j else 0)
    let q ← Tick.sum2 sel
    let n ← scalar (s.nSamples + 1)                                                      -- line 71
    let k ← scalar (1 - s.r)                                                             -- line 72
    let a ← vec fun i => k * s.mean i
    let b ← vec fun i => s.r * x i
    let mean ← vec fun i => a i + b i
    let k' ← scalar (1 - s.r)                                                            -- line 73
    let c ← mat (k' • s.cov)
    let o' ← mat (s.r • scatter)
    let cov ← mat (c + o')
    let k'' ← scalar (1 - s.r)                                                           -- line 76
    let g ← scalar (k'' * s.piCross)
    let g' ← scalar (s.r * q)
    let piCross ← scalar (g + g')
    return { s with nSamples := n, mean := mean, cov := cov, piCross := piCross }

/-- `np.clip(centered * sign, 0, None) * sign` (`partialmoments.py:56-57`), counted. -/
noncomputable def pmLegT (sign : ℝ) (c : ι → ℝ) : Tick (ι → ℝ) := do
  let a ← vec fun i => c i * sign
  let b ← vec fun i => max (a i) 0
  vec fun i => b i * sign

/-- `PartialMomentsCovariance._update_state` (`partialmoments.py:44-71`), counted. -/
noncomputable def pmUpdateT (s : PMState ι) (x : ι → ℝ) : Tick (PMState ι) := do
  let count ← scalar (s.nSamples + 1)                                                    -- line 45
  let burning ← scalar (decide (count ≤ s.nBurn))                                        -- line 47
  let mean ← (if burning then do
      let e ← vec fun i => x i - s.mean i                                                -- line 48
      let e' ← vec fun i => e i / (count : ℝ)
      vec fun i => s.mean i + e' i
    else do
      let k ← scalar (1 - s.r)                                                           -- line 50
      let a ← vec fun i => k * s.mean i
      let b ← vec fun i => s.r * x i
      vec fun i => a i + b i : Tick (ι → ℝ))
  let centered ← vec fun i => x i - s.mean i                                             -- line 51
  let quadrants ← Tick.all (n := 4) (α := fun _ => Matrix ι ι ℝ) fun q => do             -- lines 55-62
    let leg1 ← pmLegT (quadrantSigns q).1 centered                                       -- line 56
    let leg2 ← pmLegT (quadrantSigns q).2 centered                                       -- line 57
    let scatter ← mat (outer leg1 leg2)                                                  -- line 58
    let burning ← scalar (decide (count ≤ s.nBurn))                                      -- line 59
    if burning then
      let e ← mat (scatter - s.quadrants q)                                              -- line 60
      let e' ← mat (Matrix.of fun i j => e i j / (count : ℝ))
      mat (s.quadrants q + e')
    else
      let k ← scalar (1 - s.r)                                                           -- line 62
      let a ← mat (k • s.quadrants q)
      let b ← mat (s.r • scatter)
      mat (a + b)
  return { s with nSamples := count, mean := mean, quadrants := quadrants }

open Classical in
/-- `try_invert(a)` (`_linalg.py:78-86`), counted: the inverse, and the pseudo-inverse when that failed. -/
noncomputable def tryInvertT [DecidableEq ι] (L : Lapack) (w : LapackOps) (a : Matrix ι ι ℝ) : Tick (Matrix ι ι ℝ) :=
  if a.det = 0 then ⟨L.pinv a, w.inv (Fintype.card ι) + w.pinv (Fintype.card ι)⟩ else ⟨a⁻¹, w.inv (Fintype.card ι)⟩

/-- `delta @ P @ delta` (`huber.py:45`, `adaptive.py:54`, `tyler.py:54`), counted: a vector times a matrix, and a dot product. -/
noncomputable def quadT (P : Matrix ι ι ℝ) (delta : ι → ℝ) : Tick ℝ := do
  let v ← (⟨fun j => ∑ i, delta i * P i j, 2 * Fintype.card ι ^ 2⟩ : Tick (ι → ℝ))
  Tick.dot v delta

/-- `HuberCovariance._update_state` (`huber.py:36-56`), counted. -/
noncomputable def huberUpdateT [DecidableEq ι] (L : Lapack) (w : LapackOps) (pr : HuberParam) (s : EwaState ι ℝ) (x : ι → ℝ) :
    Tick (EwaState ι ℝ) := do
  let burning ← scalar (decide (s.nSamples < s.nBurn))                                   -- line 37
  if burning then
    let out ← empUpdateT s.toEmpState x                                                  -- lines 38-40
    return { s with toEmpState := out }
  else
    let delta ← vec fun i => x i - s.mean i                                              -- line 43
    let P ← tryInvertT L w s.cov                                                         -- line 45
    let maha2 ← quadT P delta
    let c2 ← scalar (pr.c ^ 2)                                                           -- line 46
    let threshold ← scalar (c2 * (Fintype.card ι : ℝ))
    let small ← scalar (open Classical in decide (maha2 ≤ threshold))                    -- line 47
    let wt ← (if small then (pure 1 : Tick ℝ) else do
      let q ← scalar (threshold / maha2)
      scalar (Real.sqrt q))
    let weighted ← vec fun i => wt * delta i                                             -- line 48
    let n ← scalar (s.nSamples + 1)                                                      -- line 51
    let a ← vec fun i => s.r * weighted i                                                -- line 52
    let mean ← vec fun i => s.mean i + a i
    let k ← scalar (1 - s.r)                                                             -- line 53
    let c ← mat (k • s.cov)
    let o ← mat (outer weighted weighted)
    let o' ← mat (s.r • o)
    let cov ← mat (c + o')
    return { s with nSamples := n, mean := mean, cov := cov }

/-- `AdaptiveEwaCovariance._update_state` (`adaptive.py:43-67`), counted. -/
noncomputable def adaUpdateT [DecidableEq ι] (L : Lapack) (w : LapackOps) (s : AdaState ι) (x : ι → ℝ) : Tick (AdaState ι) := do
  let burning ← scalar (decide (s.nSamples < s.nBurn))                                   -- line 44
  if burning then
    let out ← empUpdateT s.toEmpState x                                                  -- lines 45-49
    return { s with toEmpState := out }
  else
    let dev ← vec fun i => x i - s.mean i                                                -- line 52
    let P ← tryInvertT L w s.cov                                                         -- line 54
    let maha2 ← quadT P dev
    let any ← scalar (decide (0 < Fintype.card ι))                                       -- line 55
    let ratio ← (if any then scalar (maha2 / (Fintype.card ι : ℝ)) else pure 1 : Tick ℝ)
    let k ← scalar (1 - 1 / 10 : ℝ)                                                      -- line 56
    let a ← scalar (k * s.sbar)
    let b ← scalar ((1 / 10 : ℝ) * ratio)
    let sbar ← scalar (a + b)
    let g ← scalar (s.r * sbar)                                                          -- line 57
    let g' ← scalar (max g s.r)
    let rEff ← scalar (min g' s.maxR)
    let n ← scalar (s.nSamples + 1)                                                      -- line 60
    let k ← scalar (1 - rEff)                                                            -- line 61
    let a ← vec fun i => k * s.mean i
    let b ← vec fun i => rEff * x i
    let mean ← vec fun i => a i + b i
    let k' ← scalar (1 - rEff)                                                           -- line 62
    let c ← mat (k' • s.cov)
    let o ← mat (outer dev dev)
    let o' ← mat (rEff • o)
    let cov ← mat (c + o')
    return { s with nSamples := n, mean := mean, cov := cov, sbar := sbar }

open Classical in
/-- Lines 53-56 of `TylerCovariance._update_state` (`tyler.py`), counted. -/
noncomputable def tylerShapeT [DecidableEq ι] (L : Lapack) (w : LapackOps) (lr : ℝ) (C : Matrix ι ι ℝ) (dev : ι → ℝ) :
    Tick (Option (Matrix ι ι ℝ)) := do
  let P ← tryInvertT L w C                                                               -- line 54
  let q0 ← quadT P dev
  let q ← scalar (max q0 EPS)
  let k ← scalar (1 - lr)                                                                -- line 55
  let a ← mat (k • C)
  let lp ← scalar (lr * (Fintype.card ι : ℝ))
  let o ← mat (outer dev dev)
  let o1 ← mat (lp • o)
  let o2 ← mat (Matrix.of fun i j => o1 i j / q)
  let C1 ← mat (a + o2)
  let c2 ← mat ((Fintype.card ι : ℝ) • C1)                                               -- line 56
  let t ← (⟨C1.trace, Fintype.card ι⟩ : Tick ℝ)
  let c3 ← mat (Matrix.of fun i j => c2 i j / t)
  return if t = 0 then none else some c3

/-- `TylerCovariance._update_state` (`tyler.py:43-59`), counted; a shape that is all NaN stays so, and the same operations are
spent on it. -/
noncomputable def tylerUpdateT [DecidableEq ι] (L : Lapack) (w : LapackOps) (s : TylerState ι) (x : ι → ℝ) : Tick (TylerState ι) := do
  let n ← scalar (s.nSamples + 1)                                                        -- line 45
  let burning ← scalar (decide (n ≤ s.nBurn))                                            -- line 46
  let (lr, mean) ← (if burning then do
      let lr ← scalar (1 / (n : ℝ))                                                      -- line 47
      let e ← vec fun i => x i - s.mean i                                                -- line 48
      let e' ← vec fun i => e i / (n : ℝ)
      let mean ← vec fun i => s.mean i + e' i
      return (lr, mean)
    else do
      let k ← scalar (1 - s.r)                                                           -- line 51
      let a ← vec fun i => k * s.mean i
      let b ← vec fun i => s.r * x i
      let mean ← vec fun i => a i + b i
      return (s.r, mean) : Tick (ℝ × (ι → ℝ)))
  let dev ← vec fun i => x i - s.mean i                                                  -- line 52
  let shape ← (match s.shape with
    | none => ⟨none, (tylerShapeT L w lr 0 dev).ops⟩
    | some C => tylerShapeT L w lr C dev : Tick (Option (Matrix ι ι ℝ)))                 -- lines 53-56
  return { s with nSamples := n, mean := mean, shape := shape }

/-- `(evecs * evals) @ evecs.T` (`_linalg.py:65,104,105,110`), counted. -/
noncomputable def eigRecomposeT (v : Matrix ι ι ℝ) (e : ι → ℝ) : Tick (Matrix ι ι ℝ) := do
  let a ← mat (Matrix.of fun i j => v i j * e j)
  Tick.mm a vᵀ

/-- `make_pos_def(a)` (`_linalg.py:60-65`), counted. -/
noncomputable def makePosDefT [DecidableEq ι] (L : Lapack) (w : LapackOps) (a : Matrix ι ι ℝ) : Tick (Matrix ι ι ℝ) := do
  let b ← toSymmetricT a                                                                 -- line 62
  let e ← (⟨L.eigh b, w.eigh (Fintype.card ι)⟩ : Tick ((ι → ℝ) × Matrix ι ι ℝ))          -- line 63
  let evals ← vec fun i => max (e.1 i) (1 / 10 ^ 8)                                      -- line 64
  let m ← eigRecomposeT e.2 evals                                                        -- line 65
  toSymmetricT m

/-- `geodesic_step(start, end, gamma)` (`_linalg.py:89-112`), counted. -/
noncomputable def geodesicStepT [DecidableEq ι] (L : Lapack) (w : LapackOps) (start end_ : Matrix ι ι ℝ) (gamma : ℝ) :
    Tick (Matrix ι ι ℝ) := do
  let start ← makePosDefT L w start                                                      -- line 99
  let end_ ← makePosDefT L w end_                                                        -- line 100
  let es ← (⟨L.eigh start, w.eigh (Fintype.card ι)⟩ : Tick ((ι → ℝ) × Matrix ι ι ℝ))     -- line 102
  let evalsS ← vec fun i => max (es.1 i) EPS                                             -- line 103
  let root ← vec fun i => Real.sqrt (evalsS i)                                           -- line 104
  let startSqrt ← eigRecomposeT es.2 root
  let root' ← vec fun i => Real.sqrt (evalsS i)                                          -- line 105
  let rec' ← vec fun i => 1 / root' i
  let startInvSqrt ← eigRecomposeT es.2 rec'
  let m1 ← Tick.mm startInvSqrt end_                                                     -- line 107
  let m2 ← Tick.mm m1 startInvSqrt
  let middle ← toSymmetricT m2
  let em ← (⟨L.eigh middle, w.eigh (Fintype.card ι)⟩ : Tick ((ι → ℝ) × Matrix ι ι ℝ))    -- line 108
  let clipped ← vec fun i => max (em.1 i) 0                                              -- line 109
  let evalsM ← vec fun i => clipped i ^ gamma
  let middlePower ← eigRecomposeT em.2 evalsM                                            -- line 110
  let p1 ← Tick.mm startSqrt middlePower                                                 -- line 112
  let p2 ← Tick.mm p1 startSqrt
  toSymmetricT p2

/-- `GeodesicEwaCovariance._update_state` (`geodesic.py:39-58`), counted. -/
noncomputable def geodesicUpdateT [DecidableEq ι] (L : Lapack) (w : LapackOps) (s : EwaState ι ℝ) (x : ι → ℝ) : Tick (EwaState ι ℝ) := do
  let burning ← scalar (decide (s.nSamples < s.nBurn))                                   -- line 41
  if burning then
    let out ← empUpdateT s.toEmpState x                                                  -- lines 42-45
    return { s with toEmpState := out }
  else
    let delta ← vec fun i => x i - s.mean i                                              -- line 47
    let k ← scalar (1 - s.r)                                                             -- line 48
    let a ← vec fun i => k * s.mean i
    let b ← vec fun i => s.r * x i
    let mean ← vec fun i => a i + b i
    let o ← mat (outer delta delta)                                                      -- line 49
    let cov ← geodesicStepT L w s.cov o s.r                                              -- line 50
    let n ← scalar (s.nSamples + 1)                                                      -- line 53
    return { s with nSamples := n, mean := mean, cov := cov }

/-- `DCCCovariance._update_state` (`dcc.py:41-70`), counted. -/
noncomputable def dccUpdateT (s : DCCState ι) (x : ι → ℝ) : Tick (DCCState ι) := do
  let n ← scalar (s.nSamples + 1)                                                        -- line 43
  let dev ← vec fun i => x i - s.mean i                                                  -- line 45
  let burning ← scalar (decide (n ≤ s.nBurn))                                            -- line 47
  let (mean, h) ← (if burning then do
      let a ← vec fun i => dev i / (n : ℝ)                                               -- line 48
      let mean ← vec fun i => s.mean i + a i
      let sq ← vec fun i => dev i * dev i                                                -- line 49
      let b ← vec fun i => sq i - s.h i
      let c ← vec fun i => b i / (n : ℝ)
      let h ← vec fun i => s.h i + c i
      return (mean, h)
    else do
      let k ← scalar (1 - s.volR)                                                        -- line 51
      let a ← vec fun i => k * s.mean i
      let b ← vec fun i => s.volR * x i
      let mean ← vec fun i => a i + b i
      let k' ← scalar (1 - s.volR)                                                       -- line 52
      let c ← vec fun i => k' * s.h i
      let sq ← vec fun i => dev i * dev i
      let e ← vec fun i => s.volR * sq i
      let h ← vec fun i => c i + e i
      return (mean, h) : Tick ((ι → ℝ) × (ι → ℝ)))
  let floored ← vec fun i => max (h i) EPS                                               -- line 54
  let sd ← vec fun i => Real.sqrt (floored i)
  let eps ← vec fun i => dev i / sd i
  let o ← mat (outer eps eps)                                                            -- line 55
  let burning ← scalar (decide (n ≤ s.nBurn))                                            -- line 56
  let Q ← (if burning then do
      let e ← mat (o - s.Q)                                                              -- line 57
      let e' ← mat (Matrix.of fun i j => e i j / (n : ℝ))
      mat (s.Q + e')
    else do
      let k ← scalar (1 - s.r)                                                           -- line 59
      let a ← mat (k • s.Q)
      let b ← mat (s.r • o)
      mat (a + b) : Tick (Matrix ι ι ℝ))
  return { s with nSamples := n, mean := mean, h := h, Q := Q }

end Precise
