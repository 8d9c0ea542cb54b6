import Verif.MaxSat.Base

/-! # Call histories of the MaxSAT solver (C45): model

`maxsat/solver.go` `AddHardFormula`, `AddSoftFormula`, `SaveState`, `LoadState`, `SolveWithHandler`; `maxsat/algorithm.go` `innerSearch`, `saveState`, `loadState`. -/

namespace Verif.MaxAlg

open Verif
open Verif.MaxSat (litVal clauseVal costC St Op step run)
variable {α : Type} [DecidableEq α]

/-! ## model -/

/-- clauses.go `softClause`: clause, weight, relaxation variables, assumption literal -/
structure Sc where
  cl : List Nat
  w : Nat
  rel : List Nat := []
  asm : Option Nat := none

/-- algorithm.go:41-64 `maxSatAlgorithm`: the fields `saveState`, `loadState` and the searches use -/
structure Alg (α : Type) where
  nbVars : Nat := 0
  idx : List (α × Nat) := []
  hard : List (List Nat) := []
  soft : List Sc := []
  ubCost : Nat := 0
  lbCost : Nat := 0
  curW : Nat := 1
  orderW : List Nat := []
  nbCores : Nat := 0
  nbSym : Nat := 0
  sumSize : Nat := 0
  nbSat : Nat := 0
  stateId : Nat := 0
  valid : List Nat := []

/-- the part concerned with loading (C31) -/
def Alg.st (m : Alg α) : St α := ⟨m.nbVars, m.idx, m.hard, m.soft.map fun c => (c.cl, c.w), m.ubCost, m.curW⟩

/-- the problem a search works on -/
def Alg.prob (m : Alg α) : Prob := ⟨m.nbVars, m.hard, m.soft.map fun c => (c.cl, c.w)⟩

/-- algorithm.go:265 `addClause`: as in C31; a new soft clause has no relaxation variables and no assumption literal (algorithm.go:137) -/
def Alg.add1 (ord : List (Lit α) → List (Lit α)) (m : Alg α) (op : Op α) : Alg α :=
  let s := step ord m.st op
  { m with nbVars := s.nbVars, idx := s.idx, hard := s.hard, soft := m.soft ++ (s.soft.drop m.soft.length).map fun c => ⟨c.1, c.2, [], none⟩, ubCost := s.ubCost, curW := s.currentWeight }

/-- solver.go:33 `SolverState` -/
structure SState where
  id : Nat
  nbVars : Nat
  nbHard : Nat
  nbSoft : Nat
  ubCost : Nat
  curW : Nat
  weights : List Nat

/-- algorithm.go:310 `saveState` -/
def Alg.save (m : Alg α) : SState × Alg α :=
  (⟨m.stateId, m.nbVars, m.hard.length, m.soft.length, m.ubCost, m.curW, m.soft.map (·.w)⟩, { m with stateId := m.stateId + 1, valid := m.valid ++ [m.stateId] })

/-- algorithm.go:329 `loadState`; `none` is the error.  (Only states of this solver: there are as many weights as soft clauses.) -/
def Alg.load (m : Alg α) (s : SState) : Option (Alg α) :=
  match m.valid.reverse.findIdx? fun i => decide (i = s.id) with
  | none => none
  | some j => some { m with
      valid := m.valid.take (m.valid.length - 1 - j + 1)
      hard := m.hard.take s.nbHard
      soft := List.zipWith (fun c w => ⟨c.cl, w, [], none⟩) (m.soft.take s.nbSoft) s.weights
      orderW := []
      idx := m.idx.filter fun e => !(decide (s.nbVars ≤ e.2) && decide (e.2 < m.nbVars))
      nbVars := s.nbVars
      nbCores := 0
      nbSym := 0
      sumSize := 0
      nbSat := 0
      ubCost := s.ubCost
      lbCost := 0
      curW := s.curW }

/-- what a handler does in one call: resume at the events `MaxSATCallStarted` and `MaxSatCallFinished`; `nop` is `handler.NopHandler`, which always resumes -/
structure Call where
  start : Bool := true
  finish : Bool := true
  nop : Bool := true

/-- a call without cancellation -/
def Call.plain : Call := {}

/-- a search algorithm: which problems it accepts (weighted or not; others panic), what it does before `innerSearch`, and the search itself in the `k`-th call -/
structure Srch (α : Type) where
  sup : Bool → Bool
  pre : Alg α → Alg α
  search : Nat → Call → Alg α → Option (Alg α × Res)

/-- solver.go:46 `Solver`; `states` are the states the caller has saved -/
structure Slvr (α : Type) where
  alg : Alg α := {}
  ok : Bool := false
  res : Res := .cancel
  states : List SState := []
  calls : Nat := 0

/-- algorithm.go:97 `innerSearch` -/
def inner (A : Srch α) (k : Nat) (c : Call) (m : Alg α) : Option (Alg α × Res) :=
  if c.start = false then some (m, .cancel)
  else
    let sm := m.save
    (A.search k c sm.2).map fun mr => if c.finish = false then (mr.1, .cancel) else ((mr.1.load sm.1).getD mr.1, mr.2)

/-- solver.go:223 `SolveWithHandler`; `none` is a panic (or a search that does not end) -/
def Slvr.solve (A : Srch α) (c : Call) (s : Slvr α) : Option (Slvr α × Res) :=
  if s.ok then some (s, s.res)
  else if A.sup (decide (s.alg.curW ≠ 1)) = false then none
  else (inner A s.calls c (A.pre s.alg)).map fun mr => ({ s with alg := mr.1, ok := true, res := mr.2, calls := s.calls + 1 }, mr.2)

/-- calls: `AddHardFormula`, `AddSoftFormula` (with the clauses they add), `SaveState`, `LoadState` of the `k`-th saved state, `SolveWithHandler` -/
inductive HOp (α : Type) where
  | add (ops : List (Op α))
  | save
  | load (k : Nat)
  | solve (c : Call)

def Slvr.step (ord : List (Lit α) → List (Lit α)) (A : Srch α) (s : Slvr α) : HOp α → Option (Slvr α)
  | .add ops => some { s with alg := ops.foldl (Alg.add1 ord) s.alg, ok := false }
  | .save => some { s with alg := s.alg.save.2, states := s.states ++ [s.alg.save.1] }
  | .load k => match s.states[k]? with
    | none => some s
    | some st => some { s with alg := (s.alg.load st).getD s.alg, ok := false }
  | .solve c => (s.solve A c).map (·.1)

def history (ord : List (Lit α) → List (Lit α)) (A : Srch α) (h : List (HOp α)) : Option (Slvr α) := h.foldlM (Slvr.step ord A) {}

/-! ## specification -/

/-- what should be on the solver: the clauses `cur`; `saved` are the states that can be loaded; `n` states have been saved; `stale`: since the last change there was a call that could be cancelled -/
structure Spec (α : Type) where
  cur : List (Op α) := []
  saved : List (Nat × List (Op α)) := []
  n : Nat := 0
  stale : Bool := false

def Spec.step (s : Spec α) : HOp α → Spec α
  | .add ops => { s with cur := s.cur ++ ops, stale := false }
  | .save => { s with saved := s.saved ++ [(s.n, s.cur)], n := s.n + 1 }
  | .load k => if k < s.n then match s.saved.lookup k with
      | none => { s with stale := false }
      | some ops => { s with cur := ops, saved := s.saved.filter fun e => decide (e.1 ≤ k), stale := false }
    else s
  | .solve c => { s with stale := s.stale || !(c.nop && c.start && c.finish) }

def spec (h : List (HOp α)) : Spec α := h.foldl Spec.step {}

/-- the right result for formulas: canceled only if the call could be cancelled; unsatisfiable; or the least cost with a model of that cost (`idx` are the indices of the variables in the model) -/
def RightF (hs : List (Fm α)) (ss : List (Fm α × Nat)) (idx : List (α × Nat)) (may : Prop) : Res → Prop
  | .cancel => may
  | .unsat => ∀ v : α → Bool, ∃ f ∈ hs, f.eval v = false
  | .opt c u => (∀ v : α → Bool, (∀ x i, idx.lookup x = some i → v x = u i) → (∀ f ∈ hs, f.eval v = true) ∧ MaxSat.cost v ss = c) ∧
      ∀ v : α → Bool, (∀ f ∈ hs, f.eval v = true) → c ≤ MaxSat.cost v ss

/-! ## what is required of a search -/

/-- the state a search starts with: no traces of earlier searches, `ubCost` is the sum of the weights, `currentWeight` the greatest weight -/
structure Alg.Clean (m : Alg α) : Prop where
  lb : m.lbCost = 0
  order : m.orderW = []
  cnt : m.nbCores = 0 ∧ m.nbSym = 0 ∧ m.sumSize = 0 ∧ m.nbSat = 0
  rel : ∀ c ∈ m.soft, c.rel = [] ∧ c.asm = none
  ub : m.ubCost = (m.soft.map (·.w)).sum
  cur : (∀ c ∈ m.soft, c.w ≤ m.curW) ∧ (m.curW = 1 ∨ ∃ c ∈ m.soft, m.curW = c.w)

/-- what a search may change: it adds hard and soft clauses and variables, and changes weights, bounds, counters, relaxation variables and assumption literals -/
structure Frame (m m' : Alg α) : Prop where
  hard : ∃ x, m'.hard = m.hard ++ x
  soft : ∃ x, m'.soft.map (·.cl) = m.soft.map (·.cl) ++ x
  vars : m.nbVars ≤ m'.nbVars
  idx : m'.idx = m.idx
  valid : m'.valid = m.valid
  id : m'.stateId = m.stateId

/-- the specification of C30 for one call -/
def RightC (P : Prob) (may : Prop) : Res → Prop
  | .cancel => may
  | .unsat => ∀ u, ¬ P.Holds u
  | .opt c u => P.Holds u ∧ costC u P.soft = c ∧ ∀ u', P.Holds u' → c ≤ costC u' P.soft

/-- nothing happens before `innerSearch`, the search stays within the frame, and it is right for problems with weights in `dom` (C30) -/
structure Srch.Ok (A : Srch α) (dom : List Nat → Prop) : Prop where
  pre : ∀ m, A.pre m = m
  frame : ∀ k c m m' r, A.search k c m = some (m', r) → Frame m m'
  right : ∀ k c m, Alg.Clean m → m.prob.WF → (∀ x ∈ m.soft, 1 ≤ x.w ∧ x.cl ≠ []) → dom (m.soft.map (·.w)) →
    A.sup (decide (m.curW ≠ 1)) = true ∧ ∃ m' r, A.search k c m = some (m', r) ∧ RightC m.prob (c.nop = false) r

/-- formulas as the factory builds them: clauses are literals or disjunctions of different literals; `AddSoftFormula` refuses weights below 1 -/
def HOp.Ok : HOp α → Prop
  | .add ops => ∀ op ∈ ops, op.Ok ∧ match op with
    | .soft f w => 1 ≤ w ∧ f ≠ .or []
    | _ => True
  | _ => True

end Verif.MaxAlg
