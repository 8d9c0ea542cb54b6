import Verif.Spec.Formula
import Verif.Util
/-
Model of the caching formula factory, `formula/factory.go` and `formula/formula.go`.

The state of `CachingFactory` is a record; every method becomes a function returning the new state and the
returned handle.  Go's maps become functions into `Option`; the eight node tables (`literals`, `nots`,
`implications`, …) are merged into one table `nodes`, which is faithful because every table is only ever
indexed with handles whose sort bits select that table.
-/
namespace Verif.Factory
open Verif

/-- formula/formula.go:165-179 `FSort`. -/
inductive FSort | fls | tru | lit | not | and | or | impl | equiv | cc | pbc
deriving DecidableEq, Repr

/-- numeric value of the sort, formula/formula.go:168-179 (iota) -/
def FSort.code : FSort → Nat
  | .fls => 0 | .tru => 1 | .lit => 2 | .not => 3 | .and => 4
  | .or => 5 | .impl => 6 | .equiv => 7 | .cc => 8 | .pbc => 9

/-- A formula handle: sort (upper 4 bits) and id (lower 28 bits), formula/formula.go:9-14.
The bit-level encoding is modelled separately in `Verif.Factory.Encoding`. -/
structure H where
  sort : FSort
  id : Nat
deriving DecidableEq, Repr

/-- formula/formula.go:231-234 `EncodeFormula` (also `EncodeLiteral` 57, `EncodeVariable` 31): the id is masked to 28 bits. -/
def enc (s : FSort) (id : Nat) : H := ⟨s, id % 2 ^ 28⟩

/-- the handle as unsigned integer (`uint64(op)` in the hash functions) -/
def H.code (h : H) : UInt64 := UInt64.ofNat (h.sort.code * 2 ^ 28 + h.id)

/-- formula/formula.go:261-263 `IsPos` -/
def H.isPos (h : H) : Bool := h.id % 2 == 1

/-- formula/factory.go:484-486 `negId` -/
def negId (id : Nat) : Nat := id ^^^ 1

/-- formula/factory.go:124-125 -/
def cFalse : H := ⟨.fls, 0⟩
def cTrue : H := ⟨.tru, 1⟩

/-- Entries of the node tables, formula/factory.go:1033-1056.
`pbc`: literals and coefficients are paired (the code keeps two slices; equal length is a precondition of the API).
`cc`: all coefficients are 1 (formula/factory.go:706-712). -/
inductive Node where
  | lit (name : String) (phase : Bool)
  | not (op : H)
  | impl (l r : H)
  | equiv (l r : H)
  | and (ops : List H)
  | or (ops : List H)
  | cc (c : Cmp) (rhs : Int) (vars : List H)
  | pbc (c : Cmp) (rhs : Int) (terms : List (Int × H))
deriving DecidableEq, Repr

def Node.sort : Node → FSort
  | .lit .. => .lit | .not .. => .not | .impl .. => .impl | .equiv .. => .equiv
  | .and .. => .and | .or .. => .or | .cc .. => .cc | .pbc .. => .pbc

/-- map update -/
def upd {K V : Type} [DecidableEq K] (m : K → V) (k : K) (v : V) : K → V := fun k' => if k' = k then v else m k'

/-- formula/factory.go:79-112 `CachingFactory` (configuration, print symbols and the caches that belong to
other packages are left out; `predCNF`/`transCNF` are the two caches written by the constructors). -/
structure Fac where
  conserve : Bool
  id : Nat
  nodes : H → Option Node
  posLit : String → Option H
  negLit : String → Option H
  notC : H → Option H
  implC : H × H → Option H
  equivC : H × H → Option H
  andC : UInt64 → List H
  orC : UInt64 → List H
  ccC : UInt64 → List H
  pbcC : UInt64 → List H
  predCNF : H → Option Bool
  transCNF : H → Option H
  aux : String → Nat

/-- formula/factory.go:122-153 `NewFactory` -/
def init (conserve : Bool) : Fac where
  conserve := conserve
  id := 2
  nodes := fun _ => none
  posLit := fun _ => none
  negLit := fun _ => none
  notC := fun _ => none
  implC := fun _ => none
  equivC := fun _ => none
  andC := fun _ => []
  orC := fun _ => []
  ccC := fun _ => []
  pbcC := fun _ => []
  predCNF := fun _ => none
  transCNF := fun _ => none
  aux := fun _ => 0

/-- formula/factory.go:488-495 `nextPosId` (uint32 arithmetic) -/
def nextPosId (s : Fac) : Nat :=
  if s.id % 2 = 0 then (s.id + 1) % 2 ^ 32 else (s.id + 2) % 2 ^ 32

/-- formula/factory.go:166-171 `Constant` -/
def constant (b : Bool) : H := if b then cTrue else cFalse

/-- formula/factory.go:175-184 `Var` (the new id is always odd, so `AsVariable` succeeds) -/
def mkVar (s : Fac) (name : String) : Fac × H :=
  match s.posLit name with
  | some v => (s, v)
  | none =>
    let id := nextPosId s
    let v := enc .lit id
    ({ s with id := id, posLit := upd s.posLit name (some v), nodes := upd s.nodes v (some (.lit name true)) }, v)

/-- formula/factory.go:204-220 `Lit` -/
def mkLit (s : Fac) (name : String) (phase : Bool) : Fac × H :=
  let (s, v) := mkVar s name
  if phase then (s, v) else
  match s.negLit name with
  | some l => (s, l)
  | none =>
    let id := negId v.id
    let s := if id > s.id then { s with id := id } else s
    let l := enc .lit id
    ({ s with negLit := upd s.negLit name (some l), nodes := upd s.nodes l (some (.lit name false)) }, l)

/-- formula/factory.go:232-257 `Not`; a missing table entry is Go's zero value -/
def mkNot (s : Fac) (o : H) : Fac × H :=
  if o = cFalse then (s, cTrue)
  else if o = cTrue then (s, cFalse)
  else if o.sort = .lit then
    match s.nodes o with
    | some (.lit name phase) => mkLit s name (!phase)
    | _ => mkLit s "" true
  else if o.sort = .not then
    match s.nodes o with
    | some (.not op) => (s, op)
    | _ => (s, cFalse)
  else
    match s.notC o with
    | some n => (s, n)
    | none =>
      let id := negId o.id
      let s := if id > s.id then { s with id := id } else s
      let n := enc .not id
      ({ s with notC := upd s.notC o (some n), nodes := upd s.nodes n (some (.not o)) }, n)

/-- formula/factory.go:274-295 `Implication` -/
def mkImpl (s : Fac) (l r : H) : Fac × H :=
  if l = cFalse ∨ r = cTrue then (s, cTrue)
  else if l = cTrue then (s, r)
  else if r = cFalse ∨ l.id = negId r.id then mkNot s l
  else if !s.conserve ∧ l = r then (s, cTrue)
  else
    match s.implC (l, r) with
    | some h => (s, h)
    | none =>
      let id := nextPosId s
      let h := enc .impl id
      ({ s with id := id, implC := upd s.implC (l, r) (some h), nodes := upd s.nodes h (some (.impl l r)) }, h)

/-- formula/factory.go:298-323 `Equivalence` -/
def mkEquiv (s : Fac) (l r : H) : Fac × H :=
  if l = cTrue then (s, r)
  else if r = cTrue then (s, l)
  else if l = cFalse then mkNot s r
  else if r = cFalse then mkNot s l
  else if !s.conserve ∧ l = r then (s, cTrue)
  else if !s.conserve ∧ l.id = negId r.id then (s, cFalse)
  else
    match s.equivC (l, r) with
    | some h => (s, h)
    | none =>
      let id := nextPosId s
      let h := enc .equiv id
      ({ s with id := id, equivC := upd s.equivC (l, r) (some h), nodes := upd s.nodes h (some (.equiv l r)) }, h)

/-- formula/factory.go:497-503 `hashOperands` (uint64 arithmetic) -/
def hashOperands (ops : List H) : UInt64 :=
  ops.foldl (fun (h : UInt64) op => ((h <<< 5) + h) + op.code) 4243

/-- numeric value of the comparator, formula/formula.go:184-190 -/
def cmpCode : Cmp → UInt64
  | .eq => 0 | .le => 1 | .lt => 2 | .ge => 3 | .gt => 4

/-- formula/factory.go:505-516 `hashPbc` -/
def hashPbc (c : Cmp) (rhs : Int) (lits : List H) (coeffs : List Int) : UInt64 :=
  let h0 : UInt64 := 4243 * UInt64.ofInt rhs * cmpCode c
  let h1 := lits.foldl (fun (h : UInt64) op => ((h <<< 5) + h) + op.code) h0
  coeffs.foldl (fun (h : UInt64) k => ((h <<< 5) + h) + UInt64.ofInt k) h1

/-- `fac.ands[h].operands` (nil if missing) -/
def andOps (s : Fac) (h : H) : List H :=
  match s.nodes h with
  | some (.and ops) => ops
  | _ => []
/-- `fac.ors[h].operands` (nil if missing) -/
def orOps (s : Fac) (h : H) : List H :=
  match s.nodes h with
  | some (.or ops) => ops
  | _ => []

/-- formula/factory.go:626-637 `findAnd` -/
def findAnd (s : Fac) (hash : UInt64) (ops : List H) : Option H :=
  (s.andC hash).find? (fun a => decide (andOps s a = ops))
/-- formula/factory.go:639-650 `findOr` -/
def findOr (s : Fac) (hash : UInt64) (ops : List H) : Option H :=
  (s.orC hash).find? (fun a => decide (orOps s a = ops))

/-- formula/factory.go:764-771 `containsComplement`; `ids` is the key set of the Go map `opCache` -/
def containsComplement (s : Fac) (ids : List Nat) (f : H) : Bool :=
  if s.conserve then false else decide (negId f.id ∈ ids)

/-- formula/factory.go:790-804 `isCNFClause` -/
def isCNFClause (s : Fac) (f : H) : Bool :=
  if f.sort = .lit then true
  else if f.sort = .or then (orOps s f).all (fun o => decide (o.sort = .lit))
  else false

/-- Accumulator of the condensing loops: `opCache` (keys), `ops`, `cnfCheck`. -/
structure Acc where
  ids : List Nat
  ops : List H
  cnf : Bool

/-- formula/factory.go:555-570 `addFormulaAnd` together with the caller's treatment of its return code
(532-541, 543-549); `none` is return code 0x00. -/
def addFormulaAnd (s : Fac) (a : Acc) (f : H) : Option Acc :=
  if f = cTrue then some a
  else if f = cFalse ∨ containsComplement s a.ids f = true then none
  else
    let a := if f.id ∈ a.ids then a else { a with ids := f.id :: a.ids, ops := a.ops ++ [f] }
    if isCNFClause s f then some a else some { a with cnf := false }

/-- formula/factory.go:609-624 `addFormulaOr` together with the caller's treatment of its return code -/
def addFormulaOr (s : Fac) (a : Acc) (f : H) : Option Acc :=
  if f = cFalse then some a
  else if f = cTrue ∨ containsComplement s a.ids f = true then none
  else
    let a := if f.id ∈ a.ids then a else { a with ids := f.id :: a.ids, ops := a.ops ++ [f] }
    if f.sort = .lit then some a else some { a with cnf := false }

/-- formula/factory.go:518-553 `condenseOperandsAnd`; `none` is `isContradiction = true` -/
def condenseAnd (s : Fac) (ops : List H) : Option Acc :=
  foldOpt (fun a f => if f.sort = .and then foldOpt (addFormulaAnd s) a (andOps s f) else addFormulaAnd s a f)
    ⟨[], [], true⟩ ops

/-- formula/factory.go:572-607 `condenseOperandsOr`; `none` is `isTautology = true` -/
def condenseOr (s : Fac) (ops : List H) : Option Acc :=
  foldOpt (fun a f => if f.sort = .or then foldOpt (addFormulaOr s) a (orOps s f) else addFormulaOr s a f)
    ⟨[], [], true⟩ ops

/-- formula/factory.go:806-813 `setCNFCaches` -/
def setCNFCaches (s : Fac) (h : H) (isCnf : Bool) : Fac :=
  if isCnf then { s with predCNF := upd s.predCNF h (some true), transCNF := upd s.transCNF h (some h) }
  else { s with predCNF := upd s.predCNF h (some false) }

/-- creation of a new conjunction node, formula/factory.go:359-363 and 385-389 -/
def newAnd (s : Fac) (ops : List H) (isCnf : Bool) : Fac × H :=
  let hash := hashOperands ops
  let id := nextPosId s
  let h := enc .and id
  let s := setCNFCaches { s with id := id } h isCnf
  ({ s with andC := upd s.andC hash (s.andC hash ++ [h]), nodes := upd s.nodes h (some (.and ops)) }, h)

/-- creation of a new disjunction node, formula/factory.go:415-419 and 441-445 -/
def newOr (s : Fac) (ops : List H) (isCnf : Bool) : Fac × H :=
  let hash := hashOperands ops
  let id := nextPosId s
  let h := enc .or id
  let s := setCNFCaches { s with id := id } h isCnf
  ({ s with orC := upd s.orC hash (s.orC hash ++ [h]), nodes := upd s.nodes h (some (.or ops)) }, h)

/-- formula/factory.go:343-368 `And` -/
def mkAnd (s : Fac) (ops : List H) : Fac × H :=
  match findAnd s (hashOperands ops) ops with
  | some h => (s, h)
  | none =>
    match condenseAnd s ops with
    | none => (s, cFalse)
    | some a =>
      match a.ops with
      | [] => (s, cTrue)
      | [f] => (s, f)
      | _ =>
        match findAnd s (hashOperands a.ops) a.ops with
        | some h => (s, h)
        | none => newAnd s a.ops a.cnf

/-- formula/factory.go:374-393 `Minterm` -/
def mkMinterm (s : Fac) (ops : List H) : Fac × H :=
  match findAnd s (hashOperands ops) ops with
  | some h => (s, h)
  | none =>
    match ops with
    | [] => (s, cTrue)
    | [f] => (s, f)
    | _ => newAnd s ops true

/-- formula/factory.go:399-424 `Or` -/
def mkOr (s : Fac) (ops : List H) : Fac × H :=
  match findOr s (hashOperands ops) ops with
  | some h => (s, h)
  | none =>
    match condenseOr s ops with
    | none => (s, cTrue)
    | some a =>
      match a.ops with
      | [] => (s, cFalse)
      | [f] => (s, f)
      | _ =>
        match findOr s (hashOperands a.ops) a.ops with
        | some h => (s, h)
        | none => newOr s a.ops a.cnf

/-- formula/factory.go:430-449 `Clause` -/
def mkClause (s : Fac) (ops : List H) : Fac × H :=
  match findOr s (hashOperands ops) ops with
  | some h => (s, h)
  | none =>
    match ops with
    | [] => (s, cFalse)
    | [f] => (s, f)
    | _ => newOr s ops true

/-- formula/factory.go:773-788 `evaluateTrivialPBConstraint` -/
def evalTrivialPB : Cmp → Int → Bool
  | .eq, rhs => decide (rhs = 0)
  | .le, rhs => decide (rhs ≥ 0)
  | .lt, rhs => decide (rhs > 0)
  | .ge, rhs => decide (rhs ≤ 0)
  | .gt, rhs => decide (rhs < 0)

/-- formula/factory.go:652-664 `findCC` with `pbcsEquals` 757-762 -/
def findCC (s : Fac) (hash : UInt64) (c : Cmp) (rhs : Int) (vars : List H) : Option H :=
  (s.ccC hash).find? (fun a => decide (s.nodes a = some (.cc c rhs vars)))
/-- formula/factory.go:666-678 `findPBC` with `pbcsEquals` 757-762 -/
def findPBC (s : Fac) (hash : UInt64) (c : Cmp) (rhs : Int) (ts : List (Int × H)) : Option H :=
  (s.pbcC hash).find? (fun a => decide (s.nodes a = some (.pbc c rhs ts)))

/-- formula/factory.go:700-722 `constructCC` -/
def constructCC (s : Fac) (c : Cmp) (rhs : Int) (vars : List H) : Fac × H :=
  if vars.isEmpty then (s, constant (evalTrivialPB c rhs)) else
  let hash := hashPbc c rhs vars (vars.map fun _ => 1)
  match findCC s hash c rhs vars with
  | some h => (s, h)
  | none =>
    let id := nextPosId s
    let h := enc .cc id
    ({ s with id := id, ccC := upd s.ccC hash (s.ccC hash ++ [h]), nodes := upd s.nodes h (some (.cc c rhs vars)) }, h)

/-- formula/factory.go:724-743 `constructPBC` (the slices are stored, not copied: the model assumes the
caller does not write to them afterwards) -/
def constructPBC (s : Fac) (c : Cmp) (rhs : Int) (ts : List (Int × H)) : Fac × H :=
  if ts.isEmpty then (s, constant (evalTrivialPB c rhs)) else
  let hash := hashPbc c rhs (ts.map (·.2)) (ts.map (·.1))
  match findPBC s hash c rhs ts with
  | some h => (s, h)
  | none =>
    let id := nextPosId s
    let h := enc .pbc id
    ({ s with id := id, pbcC := upd s.pbcC hash (s.pbcC hash ++ [h]), nodes := upd s.nodes h (some (.pbc c rhs ts)) }, h)

/-- formula/factory.go:680-698 `isCC` -/
def isCC (c : Cmp) (rhs : Int) (ts : List (Int × H)) : Bool :=
  ts.all (fun t => t.2.isPos) && ts.all (fun t => decide (t.1 = 1)) &&
  (match c with
   | .le => decide (rhs ≥ 0)
   | .lt => decide (rhs ≥ 1)
   | .ge => decide (rhs ≥ 0)
   | .gt => decide (rhs ≥ 0)
   | .eq => decide (rhs ≥ 0))

/-- formula/factory.go:473-482 `PBC` -/
def mkPBC (s : Fac) (c : Cmp) (rhs : Int) (ts : List (Int × H)) : Fac × H :=
  if ts.isEmpty then (s, constant (evalTrivialPB c rhs))
  else if isCC c rhs ts then constructCC s c rhs (ts.map (·.2))
  else constructPBC s c rhs ts

/-- formula/factory.go:454-456 `CC` (rhs is a uint32); `AMO` 459, `EXO` 464 are `CC` with `LE 1`, `EQ 1`. -/
def mkCC (s : Fac) (c : Cmp) (rhs : Nat) (vars : List H) : Fac × H := constructCC s c rhs vars

/-- formula/factory.go:955-959 `NewAuxVar` -/
def mkAuxVar (s : Fac) (sort : String) : Fac × H :=
  let (s, v) := mkVar s (sort ++ toString (s.aux sort))
  ({ s with aux := upd s.aux sort (s.aux sort + 1) }, v)

/-- The public constructor calls. -/
inductive Op where
  | var (name : String)
  | lit (name : String) (phase : Bool)
  | not (o : H)
  | impl (l r : H)
  | equiv (l r : H)
  | and (ops : List H)
  | minterm (ops : List H)
  | or (ops : List H)
  | clause (ops : List H)
  | cc (c : Cmp) (rhs : Nat) (vars : List H)
  | pbc (c : Cmp) (rhs : Int) (ts : List (Int × H))
  | auxVar (sort : String)

/-- One constructor call. -/
def step (s : Fac) : Op → Fac × H
  | .var n => mkVar s n
  | .lit n p => mkLit s n p
  | .not o => mkNot s o
  | .impl l r => mkImpl s l r
  | .equiv l r => mkEquiv s l r
  | .and ops => mkAnd s ops
  | .minterm ops => mkMinterm s ops
  | .or ops => mkOr s ops
  | .clause ops => mkClause s ops
  | .cc c k vs => mkCC s c k vs
  | .pbc c k ts => mkPBC s c k ts
  | .auxVar n => mkAuxVar s n

/-- Handles the factory knows: the constants and everything in the node tables. -/
def Valid (s : Fac) (h : H) : Prop := h = cFalse ∨ h = cTrue ∨ (s.nodes h).isSome

/-- literal handles -/
def ValidLit (s : Fac) (h : H) : Prop := ∃ n p, s.nodes h = some (.lit n p)
/-- variable handles -/
def ValidVar (s : Fac) (h : H) : Prop := ∃ n, s.nodes h = some (.lit n true)

/-- A call is admissible if its arguments are handles of this factory of the static type the Go signature asks for. -/
def Op.Ok (s : Fac) : Op → Prop
  | .var _ | .lit _ _ | .auxVar _ => True
  | .not o => Valid s o
  | .impl l r | .equiv l r => Valid s l ∧ Valid s r
  | .and ops | .or ops => ∀ o ∈ ops, Valid s o
  | .minterm ops | .clause ops => ∀ o ∈ ops, ValidLit s o
  | .cc _ _ vs => ∀ o ∈ vs, ValidVar s o
  | .pbc _ _ ts => ∀ t ∈ ts, ValidLit s t.2

/-- States reachable from a fresh factory by admissible calls, as long as the 28-bit id space is not exhausted. -/
inductive Reach (c : Bool) : Fac → Prop
  | init : Reach c (init c)
  | step {s : Fac} {op : Op} : Reach c s → op.Ok s → (step s op).1.id < 2 ^ 28 → Reach c (step s op).1

/-- later states of a factory -/
inductive Later : Fac → Fac → Prop
  | refl (s : Fac) : Later s s
  | step {s s' : Fac} {op : Op} : Later s s' → op.Ok s' → (step s' op).1.id < 2 ^ 28 → Later s (step s' op).1

end Verif.Factory
