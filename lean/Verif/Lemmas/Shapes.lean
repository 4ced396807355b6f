import Verif.Model.Shapes
import Verif.Lemmas.Base
import Mathlib.Data.List.OfFn
import Mathlib.Tactic.Ring

/-! Lists of the right length (or of length 1) behave like functions on a fixed index type. -/

set_option linter.all false

namespace Precise.Shapes

variable {K : Type}

theorem mapM_ok {α β : Type} (F : α → Except PyErr β) (h : α → β) (l : List α) (H : ∀ x ∈ l, F x = .ok (h x)) :
    l.mapM F = .ok (l.map h) := by
  induction l with
  | nil => rfl
  | cons x l ih =>
    rw [List.mapM_cons, H x (by simp), ih fun y hy => H y (by simp [hy])]
    rfl

theorem mapM_ofFn {α β : Type} {d : ℕ} (F : α → Except PyErr β) (g : Fin d → α) (h : Fin d → β)
    (H : ∀ i, F (g i) = .ok (h i)) : (List.ofFn g).mapM F = .ok (List.ofFn h) := by
  induction d with
  | zero => rfl
  | succ d ih =>
    rw [List.ofFn_succ, List.ofFn_succ, List.mapM_cons, H 0, ih (fun i => g i.succ) (fun i => h i.succ) fun i => H i.succ]
    rfl

theorem zip_ofFn {α β : Type} {d : ℕ} (g : Fin d → α) (h : Fin d → β) :
    (List.ofFn g).zip (List.ofFn h) = List.ofFn fun i => (g i, h i) := by
  induction d with
  | zero => rfl
  | succ d ih => rw [List.ofFn_succ, List.ofFn_succ, List.ofFn_succ, List.zip_cons_cons, ih]

theorem bcast_ofFn {α β γ : Type} {d : ℕ} (F : α → β → Except PyErr γ) (g : Fin d → α) (h : Fin d → β)
    (k : Fin d → γ) (H : ∀ i, F (g i) (h i) = .ok (k i)) :
    bcast F (List.ofFn g) (List.ofFn h) = .ok (List.ofFn k) := by
  unfold bcast; rw [if_pos (by simp), zip_ofFn]
  exact mapM_ofFn _ _ _ H

theorem bcast_left {α β γ : Type} {d : ℕ} (F : α → β → Except PyErr γ) (u : α) (h : Fin d → β)
    (k : Fin d → γ) (H : ∀ i, F u (h i) = .ok (k i)) :
    bcast F [u] (List.ofFn h) = .ok (List.ofFn k) := by
  by_cases hd : d = 1
  · subst hd
    have : [u] = List.ofFn fun _ : Fin 1 => u := by simp
    rw [this]
    exact bcast_ofFn _ _ _ _ H
  · unfold bcast; rw [if_neg (by simp; omega)]
    exact mapM_ofFn _ _ _ H

theorem bcast_right {α β γ : Type} {d : ℕ} (F : α → β → Except PyErr γ) (g : Fin d → α) (v : β)
    (k : Fin d → γ) (H : ∀ i, F (g i) v = .ok (k i)) :
    bcast F (List.ofFn g) [v] = .ok (List.ofFn k) := by
  by_cases hd : d = 1
  · subst hd
    have : [v] = List.ofFn fun _ : Fin 1 => v := by simp
    rw [this]
    exact bcast_ofFn _ _ _ _ H
  · unfold bcast; rw [if_neg (by simp; omega)]
    have hm := mapM_ofFn (fun u => F u v) g k H
    generalize hk : List.ofFn k = l at hm ⊢
    generalize ha : List.ofFn g = a at hm ⊢
    have hl : a.length ≠ 1 := by rw [← ha]; simpa using hd
    match a, hl with
    | [], _ => exact hm
    | [u], hl => exact absurd rfl hl
    | u :: u' :: a', _ => exact hm

theorem bcast_bad {α β γ : Type} (F : α → β → Except PyErr γ) (a : List α) (b : List β)
    (h : a.length ≠ b.length) (ha : a.length ≠ 1) (hb : b.length ≠ 1) : bcast F a b = .error .valueError := by
  unfold bcast; rw [if_neg h]
  match a, b, ha, hb with
  | [_], _, ha, _ => exact absurd rfl ha
  | _, [_], _, hb => exact absurd rfl hb
  | [], [], _, _ => rfl
  | [], _ :: _ :: _, _, _ => rfl
  | _ :: _ :: _, [], _, _ => rfl
  | _ :: _ :: _, _ :: _ :: _, _, _ => rfl

/-- A list stands for a vector of length `d`: its entries, or one entry to be repeated. -/
def Rep {d : ℕ} (a : List K) (g : Fin d → K) : Prop := a = List.ofFn g ∨ ∃ u, a = [u] ∧ g = fun _ => u

theorem vec2_rep {d : ℕ} (f : K → K → K) {a b : List K} {g h : Fin d → K} (ha : Rep a g) (hb : Rep b h)
    (full : a = List.ofFn g ∨ b = List.ofFn h) : vec2 f a b = .ok (List.ofFn fun i => f (g i) (h i)) := by
  rcases full with rfl | rfl
  · rcases hb with rfl | ⟨v, rfl, rfl⟩
    · exact bcast_ofFn _ _ _ _ fun _ => rfl
    · exact bcast_right _ _ _ _ fun _ => rfl
  · rcases ha with rfl | ⟨u, rfl, rfl⟩
    · exact bcast_ofFn _ _ _ _ fun _ => rfl
    · exact bcast_left _ _ _ _ fun _ => rfl

theorem Rep.map {d : ℕ} {a : List K} {g : Fin d → K} (h : Rep a g) (f : K → K) : Rep (a.map f) fun i => f (g i) := by
  rcases h with rfl | ⟨u, rfl, rfl⟩
  · left; rw [List.map_ofFn]; rfl
  · right; exact ⟨f u, rfl, rfl⟩

theorem rep_full {d : ℕ} (g : Fin d → K) : Rep (List.ofFn g) g := .inl rfl

/-- The nested list of a matrix. -/
def embM {d : ℕ} (M : Matrix (Fin d) (Fin d) K) : List (List K) := List.ofFn fun i => List.ofFn fun j => M i j

/-- A nested list stands for a `d × d` matrix: its entries, or one entry to be repeated. -/
def MRep {d : ℕ} (A : List (List K)) (M : Matrix (Fin d) (Fin d) K) : Prop :=
  A = embM M ∨ ∃ c, A = [[c]] ∧ M = Matrix.of fun _ _ => c

theorem embM_map {d : ℕ} (f : K → K) (M : Matrix (Fin d) (Fin d) K) :
    (embM M).map (fun row => row.map f) = embM (Matrix.of fun i j => f (M i j)) := by
  rw [embM, List.map_ofFn, embM]
  congr 1
  funext i
  show (List.ofFn fun j => M i j).map f = _
  rw [List.map_ofFn]
  rfl

theorem MRep.map {d : ℕ} {A : List (List K)} {M : Matrix (Fin d) (Fin d) K} (h : MRep A M) (f : K → K) :
    MRep (A.map fun row => row.map f) (Matrix.of fun i j => f (M i j)) := by
  rcases h with rfl | ⟨u, rfl, rfl⟩
  · left
    exact embM_map f M
  · right; exact ⟨f u, rfl, rfl⟩

theorem mat2_rep {d : ℕ} (f : K → K → K) {A B : List (List K)} {M N : Matrix (Fin d) (Fin d) K} (hA : MRep A M)
    (hB : B = embM N) : mat2 f A B = .ok (embM (Matrix.of fun i j => f (M i j) (N i j))) := by
  subst hB
  rcases hA with rfl | ⟨c, rfl, rfl⟩
  · exact bcast_ofFn _ _ _ _ fun i => vec2_rep f (rep_full _) (rep_full _) (.inl rfl)
  · exact bcast_left _ _ _ _ fun i => vec2_rep f (.inr ⟨c, rfl, rfl⟩) (rep_full _) (.inr rfl)

theorem outerL_ofFn [Mul K] {d : ℕ} (u v : Fin d → K) : outerL (List.ofFn u) (List.ofFn v) = embM (outer u v) := by
  rw [outerL, List.map_ofFn, embM]
  congr 1
  funext i
  show (List.ofFn v).map _ = _
  rw [List.map_ofFn]
  rfl

section
variable [Field K] {d : ℕ}

/-- A list state stands for a typed state: all arrays full, or all of size 1. -/
structure SRep (st : EmpL K) (s : EmpState (Fin d) K) (full : Prop) : Prop where
  n : st.nSamples = s.nSamples
  mean : Rep st.mean s.mean
  cov : MRep st.cov s.cov
  full_mean : full → st.mean = List.ofFn s.mean
  full_cov : full → st.cov = embM s.cov

/-- The list state of a typed state, with the recorded `n_dim`. -/
def embEmp (nd : ℕ) (s : EmpState (Fin d) K) : EmpL K :=
  { nDim := nd, nSamples := s.nSamples, mean := List.ofFn s.mean, cov := embM s.cov }

theorem embEmp_rep (nd : ℕ) (s : EmpState (Fin d) K) (f : Prop) : SRep (embEmp nd s) s f :=
  ⟨rfl, .inl rfl, .inl rfl, fun _ => rfl, fun _ => rfl⟩

theorem empInitL_eq : (empInitL d : EmpL K) = embEmp d (empInit : EmpState (Fin d) K) := by
  simp only [empInitL, embEmp, empInit, embM, EmpL.mk.injEq, true_and]
  constructor
  · rw [List.ofFn_const]
  · simp [List.ofFn_const]

theorem empUpdateL_rep {st : EmpL K} {s : EmpState (Fin d) K} {f : Prop} (hs : SRep st s f) {x : List K}
    {ξ : Fin d → K} (hx : Rep x ξ) (full : f ∨ x = List.ofFn ξ) :
    empUpdateL st x = .ok (embEmp st.nDim (empUpdate s ξ)) := by
  have h1 := vec2_rep (· - ·) hx hs.mean (full.symm.imp id fun h => hs.full_mean h)
  have h2 : vec2 (· + ·) st.mean ((List.ofFn fun i => ξ i - s.mean i).map (· / ((s.nSamples + 1 : ℕ) : K)))
      = .ok (List.ofFn (empUpdate s ξ).mean) := by
    rw [List.map_ofFn]
    exact vec2_rep (· + ·) hs.mean (rep_full _) (.inr rfl)
  have h3 := vec2_rep (· - ·) hx (rep_full (empUpdate s ξ).mean) (.inr rfl)
  rw [empUpdateL]
  simp only [hs.n, h1, bind, Except.bind]
  rw [h2]
  simp only [h3]
  rw [List.map_ofFn, outerL_ofFn, mat2_rep (· + ·) (hs.cov.map fun c => c * ((s.nSamples + 1 - 1 : ℕ) : K) / ((s.nSamples + 1 : ℕ) : K)) rfl]
  rfl

/-- The list state of a typed EWA state. -/
def embEwa (nd : ℕ) (s : EwaState (Fin d) K) : EwaL K :=
  { toEmpL := embEmp nd s.toEmpState, r := s.r, nBurn := s.nBurn }

theorem ewaUpdateL_rep {st : EwaL K} {s : EwaState (Fin d) K} {f : Prop} (hs : SRep st.toEmpL s.toEmpState f)
    (hr : st.r = s.r) (hn : st.nBurn = s.nBurn) {x : List K}
    {ξ : Fin d → K} (hx : Rep x ξ) (full : f ∨ x = List.ofFn ξ) :
    ewaUpdateL st x = .ok (embEwa st.nDim (ewaUpdate s ξ)) := by
  rw [ewaUpdateL, ewaUpdate, hs.n, hn]
  split
  · rw [empUpdateL_rep hs hx full, hr]; rfl
  · have h1 := vec2_rep (· - ·) hx hs.mean (full.symm.imp id fun h => hs.full_mean h)
    have h2 : vec2 (· + ·) (st.mean.map fun m => (1 - s.r) * m) (x.map fun a => s.r * a)
        = .ok (List.ofFn fun i => (1 - s.r) * s.mean i + s.r * ξ i) := by
      refine vec2_rep (· + ·) (hs.mean.map _) (hx.map _) (full.imp (fun h => ?_) fun h => ?_)
      · rw [hs.full_mean h, List.map_ofFn]; rfl
      · rw [h, List.map_ofFn]; rfl
    have h3 : (embM (outer (fun i => ξ i - s.mean i) (fun i => ξ i - s.mean i))).map (fun row => row.map fun c => s.r * c)
        = embM (s.r • outer (fun i => ξ i - s.mean i) (fun i => ξ i - s.mean i)) := by
      exact embM_map _ _
    rw [ewaBlendL]
    simp only [hr, h1, bind, Except.bind]
    rw [h2]
    simp only []
    rw [outerL_ofFn, h3, mat2_rep (· + ·) (hs.cov.map fun c => (1 - s.r) * c) rfl]
    show Except.ok _ = _
    rw [hs.n, hn]
    rfl

/-- Wrong length: the update raises. -/
theorem empUpdateL_bad {st : EmpL K} {x : List K} (h : x.length ≠ st.mean.length) (hx : x.length ≠ 1)
    (hd : st.mean.length ≠ 1) : empUpdateL st x = .error .valueError := by
  have : vec2 (· - ·) x st.mean = .error .valueError := bcast_bad _ _ _ h hx hd
  rw [empUpdateL]
  simp only [this]
  rfl

theorem ewaUpdateL_bad {st : EwaL K} {x : List K} (h : x.length ≠ st.mean.length) (hx : x.length ≠ 1)
    (hd : st.mean.length ≠ 1) : ewaUpdateL st x = .error .valueError := by
  rw [ewaUpdateL]
  split
  · rw [empUpdateL_bad h hx hd]; rfl
  · have : vec2 (· - ·) x st.mean = .error .valueError := bcast_bad _ _ _ h hx hd
    rw [ewaBlendL]
    simp only [this]
    rfl

end

/-! ## Simulation of objects -/

/-- A class with run-time lengths agrees, on `d`-dimensional data, with a typed class. -/
structure Sim {d : ℕ} (L : ClsL K) (C : Cls (Fin d) K) (p : L.Param) (q : C.Param) where
  emb : C.State → L.State
  diff : L.diff p = C.diff q
  upd : ∀ s x, L.updateState p (emb s) (List.ofFn x) = .ok (emb (C.updateState q s x))
  upd_one : ∀ s a, L.updateState p (emb s) [a] = .ok (emb (C.updateState q s fun _ => a))
  upd_bad : ∀ s x, x.length ≠ d → x.length ≠ 1 → d ≠ 1 → L.updateState p (emb s) x = .error .valueError
  n : ∀ s, L.nSamples (emb s) = C.nSamples s
  mean : ∀ s, L.toMean (emb s) = List.ofFn (C.toMean q s)
  cov : ∀ s, L.toCov (emb s) = embM (C.toCov q s)

/-- ... including the initial state. -/
structure SimI {d : ℕ} (L : ClsL K) (C : Cls (Fin d) K) (p : L.Param) (q : C.Param) extends Sim L C p q where
  init : L.initState p d = .ok (emb (C.initState q))

/-- A typed argument as nested lists. -/
def embIn {d : ℕ} : Input (Fin d) K → InputL K
  | .row x => .row (List.ofFn x)
  | .batch xs => .batch (xs.map List.ofFn)
  | .other n => .other n

theorem rect_emb {d : ℕ} (xs : List (Fin d → K)) : rect (xs.map List.ofFn) = true := by
  cases xs with
  | nil => rfl
  | cons x t => simp [rect]

theorem asRows_emb {d : ℕ} (X : Input (Fin d) K) : asRowsL (embIn X) = (asRows X).map (List.map List.ofFn) := by
  cases X with
  | row x => rfl
  | batch xs => simp only [embIn, asRowsL, rect_emb]; rfl
  | other n => rfl

section
variable {d : ℕ} {L : ClsL K} {C : Cls (Fin d) K} {p : L.Param} {q : C.Param}

/-- The list object of a typed object. -/
def Sim.obj (S : Sim L C p q) (o : Obj C) : ObjL L :=
  { params := p, state := o.state.map S.emb, nFeatures := o.nFeatures, prevX := o.prevX.map List.ofFn }

theorem SimI.feed (S : SimI L C p q) (o : Obj C) (hq : o.params = q) (x : Fin d → K) :
    (S.obj o).feed (List.ofFn x) = (S.obj (o.feed x), .ok ()) := by
  obtain ⟨pp, st, nf, pv⟩ := o
  subst hq
  cases st with
  | none =>
    simp only [ObjL.feed, Sim.obj, Obj.feed, Option.map_none, List.length_ofFn, S.init, ObjL.update, S.upd,
      Option.map_some, Fintype.card_fin]
  | some s =>
    simp only [ObjL.feed, Sim.obj, Obj.feed, Option.map_some, ObjL.update, S.upd]

theorem SimI.stepRow [Sub K] (S : SimI L C p q) (o : Obj C) (hq : o.params = q) (x : Fin d → K) :
    (S.obj o).stepRow (List.ofFn x) = (S.obj (o.stepRow x), .ok ()) := by
  have hd : L.diff (S.obj o).params = C.diff o.params := by rw [hq]; exact S.diff
  rw [ObjL.stepRow, Obj.stepRow, hd]
  split
  · cases hp : o.prevX with
    | none =>
      have : (S.obj o).prevX = none := by simp [Sim.obj, hp]
      rw [this]
      rfl
    | some y =>
      have : (S.obj o).prevX = some (List.ofFn y) := by simp [Sim.obj, hp]
      rw [this]
      simp only [vec2_rep (· - ·) (rep_full x) (rep_full y) (.inl rfl)]
      exact S.feed { o with prevX := some x } hq (x - y)
  · exact S.feed o hq x

theorem SimI.feedRows [Sub K] (S : SimI L C p q) (o : Obj C) (hq : o.params = q) (xs : List (Fin d → K)) :
    (S.obj o).feedRows (xs.map List.ofFn) = (S.obj (o.feedRows xs), .ok ()) := by
  induction xs generalizing o with
  | nil => rfl
  | cons x xs ih =>
    rw [List.map_cons, ObjL.feedRows, S.stepRow o hq]
    exact ih (o.stepRow x) ((stepRow_params o x).trans hq)

theorem SimI.partialFit [Sub K] (S : SimI L C p q) (o : Obj C) (hq : o.params = q) (X : Input (Fin d) K) :
    (S.obj o).partialFit (embIn X) = (S.obj (o.partialFit X).1, (o.partialFit X).2) := by
  rw [ObjL.partialFit, asRows_emb]
  cases X with
  | row x => exact S.feedRows o hq [x]
  | batch xs => exact S.feedRows o hq xs
  | other n => rfl

theorem SimI.fit [Sub K] (S : SimI L C p q) (o : Obj C) (hq : o.params = q) (X : Input (Fin d) K) :
    (S.obj o).fit (embIn X) = (S.obj (o.fit X).1, (o.fit X).2) := by
  cases X with
  | row x => rfl
  | batch xs => exact S.partialFit { o with state := none, prevX := none } hq (.batch xs)
  | other n => rfl

end

end Precise.Shapes
