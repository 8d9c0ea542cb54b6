import Verif.Sat.Props
import Verif.Encoding.Base
import Verif.NormalForm.Props
/-!
# The SAT solver on formulas

Model of sat/solver.go, sat/pg_on_solver.go, sat/encoding_result.go and sat/call.go on top of the core solver (`Verif.Sat`): names of variables, conversion of
formulas to clauses while they are added (Plaisted–Greenbaum with a cache of the definitions), calls with additional literals and formulas, states.

Simplified:
* Names are the variables of formulas and the auxiliary variables of the factory (`Enc.EV`); a variable made by the transformation itself has a name that no formula
  uses ("@RESERVED_CNF_…SOLVER_i", pg_on_solver.go:315-320).  The map between names and indices is the list `slots`.
* The clauses of cardinality and pseudo-Boolean constraints at the top, and of the method `CNFFactory`, come from a parameter (`Env.enc`, `Env.cnf`), see C09–C16.  Their
  auxiliary variables get their indices before the clauses are added.
* `generateClauseVector` sorts the literals of the formula it is given in place (solver.go:150), also those of a constraint of the factory (factory.go:907); here sorting makes a
  copy, see C51 for the effect.
* No propositions, no proofs.
-/
namespace Verif.Solver
open Verif

variable {α : Type} [DecidableEq α]

/-- what a variable of the core solver stands for; the formula of a definition is not stored by the code, which has the name with the index there -/
inductive Slot (α : Type) where
  | name (e : Enc.EV α)
  | pg (g : Fm α)

/-- does the slot carry this name -/
def Slot.is (e : Enc.EV α) : Slot α → Bool
  | .name e' => e == e'
  | .pg _ => false

/-- pg_on_solver.go:21-25 `varCacheEntry`; the variable as a positive literal -/
structure Entry where
  var : Nat
  pos : Bool
  neg : Bool

/-- names, cache of the transformation, and the calls of the core solver so far -/
structure PS (α : Type) where
  slots : List (Slot α)
  cache : List (Fm α × Entry)
  ops : List Sat.Op

/-- core.go:1300-1306 `IdxForName` -/
def idx (slots : List (Slot α)) (e : Enc.EV α) : Option Nat := slots.findIdx? (·.is e)

/-- `AddClause` of the core solver -/
def PS.add (s : PS α) (c : List Nat) : PS α := { s with ops := s.ops ++ [.add c] }

/-- `NewVar` and `addName` of the core solver -/
def PS.new (s : PS α) (x : Slot α) : PS α := { s with slots := s.slots ++ [x], ops := s.ops ++ [.newVar] }

/-- solver literal of an index -/
def slit (i : Nat) (phase : Bool) : Nat := if phase then 2 * i else 2 * i + 1

/-- pg_on_solver.go:303-313 `solverLiteral`, solver.go:165-173 `getOrAddIndex`, encoding_result.go:27-42 `addLiteral` -/
def solverLit (l : Lit (Enc.EV α)) (s : PS α) : Nat × PS α :=
  match idx s.slots l.var with
  | some i => (slit i l.pos, s)
  | none => (slit s.slots.length l.pos, s.new (.name l.var))

/-- solver.go:148-163 `generateClauseVector`, pg_on_solver.go:293-301 `generateClauseSlice`, encoding_result.go:19-25 (the literals in the order given) -/
def clauseVec : List (Lit (Enc.EV α)) → PS α → List Nat × PS α
  | [], s => ([], s)
  | l :: ls, s =>
    let (x, s) := solverLit l s
    let (xs, s) := clauseVec ls s
    (x :: xs, s)

/-- the literal of a formula -/
def usr (l : Lit α) : Lit (Enc.EV α) := ⟨.usr l.var, l.pos⟩

/-- pg_on_solver.go:282-291 `getPGVar` with `setPolarityCached` (31-41) and `newSolverVariable` (315-320) -/
def getPGVar (f : Fm α) (pol : Bool) (s : PS α) : Bool × Nat × PS α :=
  match s.cache.lookup f with
  | some e =>
    (if pol then e.pos else e.neg, e.var, { s with cache := (f, ⟨e.var, e.pos || pol, e.neg || !pol⟩) :: s.cache })
  | none =>
    let x := slit s.slots.length true
    let s := s.new (.pg f)
    (false, x, { s with cache := (f, ⟨x, pol, !pol⟩) :: s.cache })

/-- add the clause unless it is `nil` -/
def PS.addNonNil (s : PS α) : Option (List Nat) → PS α
  | none => s
  | some c => s.add c

/-- pg_on_solver.go:168-171: both operands of an equivalence with both polarities; `A`, `B`: transformations of the operands -/
def equivOps (A B : Bool → PS α → Option (Option (List Nat) × PS α)) (s : PS α) : Option (List Nat × List Nat × List Nat × List Nat × PS α) :=
  match A true s with
  | none => none
  | some (lp, s) => match A false s with
    | none => none
    | some (ln, s) => match B true s with
      | none => none
      | some (rp, s) => match B false s with
        | none => none
        | some (rn, s) => some (lp.getD [], ln.getD [], rp.getD [], rn.getD [], s)

mutual
/-- pg_on_solver.go:89-111 `computeTransformation`, 113-150 `pgImpl`, 152-200 `pgEquiv`, 202-280 `pgNary`; `none`: the panic of line 109 -/
def pg : Fm α → (pol top : Bool) → PS α → Option (Option (List Nat) × PS α)
  | .lit l, pol, _, s =>
    let (x, s) := solverLit (usr l) s
    some (some [if pol then x else Sat.neg x], s)
  | .not f, pol, top, s => pg f (!pol) top s
  | .and fs, pol, top, s =>
    if pol then
      if top then (pgTop fs true s).map fun s => (none, s)
      else
        let (was, x, s) := getPGVar (.and fs) true s
        if was then some (some [x], s)
        else (pgDef fs true (Sat.neg x) s).map fun s => (some [x], s)
    else (pgOne fs false s).map fun r => (some r.1, r.2)
  | .or fs, pol, top, s =>
    if pol then (pgOne fs true s).map fun r => (some r.1, r.2)
    else
      if top then (pgTop fs false s).map fun s => (none, s)
      else
        let (was, x, s) := getPGVar (.or fs) false s
        if was then some (some [Sat.neg x], s)
        else (pgDef fs false x s).map fun s => (some [Sat.neg x], s)
  | .impl a b, pol, top, s =>
    if pol then
      match pg a false false s with
      | none => none
      | some (l, s) => match pg b true false s with
        | none => none
        | some (r, s) => some (some (l.getD [] ++ r.getD []), s)
    else if top then
      match pg a true true s with
      | none => none
      | some (l, s) => match pg b false true s with
        | none => none
        | some (r, s) => some (none, (s.addNonNil l).addNonNil r)
    else
      let (was, x, s) := getPGVar (.impl a b) false s
      if was then some (some [Sat.neg x], s)
      else match pg a true false s with
        | none => none
        | some (l, s) => match pg b false false s with
          | none => none
          | some (r, s) => some (some [Sat.neg x], (s.add (x :: l.getD [])).add (x :: r.getD []))
  | .equiv a b, pol, top, s =>
    if top then
      match equivOps (fun p s => pg a p false s) (fun p s => pg b p false s) s with
      | none => none
      | some (lp, ln, rp, rn, s) =>
        if pol then some (none, (s.add (ln ++ rp)).add (lp ++ rn))
        else some (none, (s.add (lp ++ rp)).add (ln ++ rn))
    else
      let (was, x, s) := getPGVar (.equiv a b) pol s
      if was then some (some [if pol then x else Sat.neg x], s)
      else match equivOps (fun p s => pg a p false s) (fun p s => pg b p false s) s with
        | none => none
        | some (lp, ln, rp, rn, s) =>
          if pol then some (some [x], (s.add (Sat.neg x :: (ln ++ rp))).add (Sat.neg x :: (lp ++ rn)))
          else some (some [Sat.neg x], (s.add (x :: (lp ++ rp))).add (x :: (ln ++ rn)))
  | _, _, _, _ => none
/-- pg_on_solver.go:224-231, 260-267: the operands at the top level -/
def pgTop : List (Fm α) → Bool → PS α → Option (PS α)
  | [], _, s => some s
  | f :: fs, pol, s => match pg f pol true s with
    | none => none
    | some (c, s) => pgTop fs pol (s.addNonNil c)
/-- pg_on_solver.go:224-234, 260-270: the operands of a defined formula -/
def pgDef : List (Fm α) → Bool → Nat → PS α → Option (PS α)
  | [], _, _, s => some s
  | f :: fs, pol, x, s => match pg f pol false s with
    | none => none
    | some (c, s) => pgDef fs pol x (s.add (x :: c.getD []))
/-- pg_on_solver.go:239-246, 250-257: the operands in one clause -/
def pgOne : List (Fm α) → Bool → PS α → Option (List Nat × PS α)
  | [], _, s => some ([], s)
  | f :: fs, pol, s => match pg f pol false s with
    | none => none
    | some (c, s) => match pgOne fs pol s with
      | none => none
      | some (cs, s) => some (c.getD [] ++ cs, s)
end

/-- the literals of a clause; none for other formulas -/
def clsLits : Fm α → List (Lit α)
  | .lit l => [l]
  | .or fs => fs.filterMap fun | .lit l => some l | _ => none
  | _ => []

/-- configuration and surroundings of a solver -/
structure Env (α : Type) where
  /-- factory keeps contradictions -/
  cons : Bool
  /-- order of literals by their handles -/
  srt : List (Lit α) → List (Lit α)
  /-- encodings of constraints inside formulas, as used by the NNF -/
  encF : Fm α → Fm α
  /-- clauses of a constraint at the top, from a counter of auxiliary variables -/
  enc : Fm α → Nat → List (Enc.Clause α) × Nat
  /-- clauses of the CNF of a formula -/
  cnf : Fm α → Nat → List (Enc.Clause α) × Nat
  /-- does the NNF precede the transformation (`CNFPG`) or not (`CNFFullPG`); `none`: `CNFFactory` -/
  nnf : Option Bool
  /-- `UseAtMostClauses` -/
  atMost : Bool := false

/-- add the clauses, the literals as they come -/
def addClauses : List (List (Lit (Enc.EV α))) → PS α → PS α
  | [], s => s
  | c :: cs, s =>
    let (xs, s) := clauseVec c s
    addClauses cs (s.add xs)

/-- pg_on_solver.go:73-87 `addCNF`: the clauses of a formula in CNF -/
def cnfClauses (srt : List (Lit α) → List (Lit α)) : Fm α → List (List (Lit (Enc.EV α)))
  | .tru => []
  | .and fs => fs.map fun f => (srt (clsLits f)).map usr
  | f => [(srt (clsLits f)).map usr]

/-- encoding_result.go:44-54: new auxiliary variables -/
def newAux (k n : Nat) (s : PS α) : PS α := (List.range' k n).foldl (fun s i => s.new (.name (.aux i))) s

/-- pg_on_solver.go:47-67 `addCNFToSolver`; `none`: panic -/
def addCNFToSolver (E : Env α) (performNNF : Bool) (f : Fm α) (s : PS α) : Option (PS α) :=
  let g := if performNNF || !f.pbFree then NF.nnf E.cons E.encF f true else f
  if Spec.isCNF g then some (addClauses (cnfClauses E.srt g) s)
  else match pg g true true s with
    | none => none
    | some (c, s) => some (s.addNonNil c)

/-- solver.go:86-94: the variables and the bound of the at-most clause that replaces a constraint; is the clause of the variables added as well -/
def atMostOf : Fm α → Option (List α × Int × Bool)
  | .cc .le k xs => some (xs, k, false)
  | .cc .lt k xs => if k > 3 then some (xs, k - 1, false) else none
  | .cc .eq k xs => if k = 1 then some (xs, k, true) else none
  | _ => none

/-- solver.go:83-94 with the configuration -/
def amPart (E : Env α) (f : Fm α) : Option (List α × Int × Bool) := if E.atMost then atMostOf f else none

/-- solver.go:83, 98-106: is the formula encoded as a constraint -/
def encTop (E : Env α) : Fm α → Bool
  | .cc _ _ _ => !E.atMost
  | .pbc _ _ _ => true
  | _ => false

/-- `addAtMost` of the core solver for these literals, all of them positive -/
def PS.addAm (s : PS α) (c : List Nat) (r : Int) : PS α := { s with ops := s.ops ++ [.atMost (c.map (· / 2)) r] }

/-- the variables as literals -/
def poss (xs : List α) : List (Lit α) := xs.map fun x => ⟨x, true⟩

/-- solver.go:82-122 `addWithProp`, `addFormulaAsCNF`: a formula is added; also the counter of auxiliary variables -/
def addFormula (E : Env α) (f : Fm α) (k : Nat) (s : PS α) : Option (PS α × Nat) :=
  match amPart E f with
  | some (xs, r, b) =>
    let (c, s) := clauseVec ((E.srt (poss xs)).map usr) s
    some (if b then (s.addAm c r).add c else s.addAm c r, k)
  | none =>
    if encTop E f then
      let (cs, k') := E.enc f k
      some (addClauses cs (newAux k (k' - k) s), k')
    else match E.nnf with
      | none =>
        let (cs, k') := E.cnf f k
        some (addClauses cs (newAux k (k' - k) s), k')
      | some b => (addCNFToSolver E b f s).map fun s => (s, k)

/-- the solver: core, names, cache, counter of auxiliary variables of the factory -/
structure FS (α : Type) where
  w : Sat.W := {}
  slots : List (Slot α) := []
  cache : List (Fm α × Entry) := []
  k : Nat := 0

/-- the collected calls reach the core solver -/
def FS.flush (fuel : Nat) (t : FS α) (s : PS α) (k : Nat) : Option (FS α) :=
  (Sat.W.run fuel t.w s.ops).map fun w => ⟨w, s.slots, s.cache, k⟩

/-- solver.go:66-70 `Add` for one formula -/
def FS.add (E : Env α) (fuel : Nat) (t : FS α) (f : Fm α) : Option (FS α) :=
  match addFormula E f t.k ⟨t.slots, t.cache, []⟩ with
  | none => none
  | some (s, k) => t.flush fuel s k

/-- solver.go:66-80: several formulas -/
def FS.addAll (E : Env α) (fuel : Nat) : FS α → List (Fm α) → Option (FS α)
  | t, [] => some t
  | t, f :: fs => match t.add E fuel f with
    | none => none
    | some t => FS.addAll E fuel t fs

/-- solver.go:181-183 `SaveState` -/
def FS.save (t : FS α) : FS α := { t with w := ⟨(Sat.saveState t.w.s).1, t.w.handles ++ [(Sat.saveState t.w.s).2]⟩ }

/-- solver.go:187-195 `LoadState`, core.go:568-575 (names of dropped variables); the caches are cleared unless the state is rejected -/
def FS.load (fuel : Nat) (t : FS α) (k : Nat) : Option (FS α × Bool) :=
  match t.w.step fuel (.load k) with
  | some (w, .bool b) => if b then some (⟨w, t.slots.take w.s.nVars, [], t.k⟩, true) else some ({ t with w := w }, false)
  | _ => none

/-- core.go:1308-1319 `upZeroLiterals`; the trail of the model is in reverse order -/
def upZeroLiterals (s : Sat.S) : List Nat := s.trail.reverse.takeWhile fun l => s.level (l / 2) == 0

/-- result of a call: verdict (`none`: cancelled), the model vector, the literals at level 0, and the names at that time -/
structure CallRes (α : Type) where
  verdict : Option Bool
  model : List Bool
  zero : List Nat
  slots : List (Slot α)

/-- call.go:233-257 `initCall`, 274-287 `close`: assumption literals, additional formulas, run of the core solver; the state is loaded again if there were formulas -/
def FS.call (E : Env α) (fuel : Nat) (t : FS α) (r : Sat.Run) (lits : List (Lit α)) (props : List (Fm α)) : Option (FS α × CallRes α) :=
  let (asm, s) := clauseVec ((E.srt lits).map usr) ⟨t.slots, t.cache, []⟩
  match t.flush fuel s t.k with
  | none => none
  | some t =>
    match (if props = [] then some t else FS.addAll E fuel t.save props) with
    | none => none
    | some t1 => match t1.w.step fuel (.solve r asm) with
      | some (w, .verdict v) =>
        let res : CallRes α := ⟨v, w.s.model, upZeroLiterals w.s, t1.slots⟩
        let t2 := { t1 with w := w }
        if props = [] then some (t2, res)
        else (t2.load fuel t.w.handles.length).map fun x => (x.1, res)
      | _ => none

/-- solver.go:216-226 `computeModel`, core.go:1336-1346 `CreateModel`: variables without index are skipped; the literals of the model.  `none`: index out of range -/
def CallRes.modelFor (r : CallRes α) (vars : List α) : Option (List (Lit α)) :=
  (vars.filterMap fun x => (idx r.slots (.usr x)).map fun i => (x, i)).mapM fun p => r.model[p.2]?.map fun b => ⟨p.1, b⟩

/-- solver.go:228-236 `computeUpZeroLits`: names and phases.  `none`: a variable without slot -/
def CallRes.upZero (r : CallRes α) : Option (List (Slot α × Bool)) := r.zero.mapM fun l => r.slots[l / 2]?.map fun x => (x, l % 2 == 0)

/-- operations on the solver -/
inductive FOp (α : Type) where
  | add (f : Fm α)
  | call (r : Sat.Run) (lits : List (Lit α)) (props : List (Fm α))
  | save
  | load (k : Nat)

/-- one operation -/
def FS.step (E : Env α) (fuel : Nat) (t : FS α) : FOp α → Option (FS α)
  | .add f => t.add E fuel f
  | .call r lits props => (t.call E fuel r lits props).map (·.1)
  | .save => some t.save
  | .load k => (t.load fuel k).map (·.1)

def FS.run (E : Env α) (fuel : Nat) : FS α → List (FOp α) → Option (FS α)
  | t, [] => some t
  | t, o :: os => match t.step E fuel o with
    | none => none
    | some t => FS.run E fuel t os

end Verif.Solver
