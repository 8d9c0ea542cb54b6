import Verif.Factory.Tree
/-
Model of the package `assignment`: assignments, `Evaluate`, `Restrict`, `EvaluatesToTrue`, `EvaluatesToFalse`.
Formulas are trees; results are built with the tree constructors (`Verif.Factory.Tree`).  A literal id of the code is a
variable name with a phase here (`id ^ 1` is the same variable with the other phase, theorem `C04_not_literal`).
Go's `int` is modelled by `Int` (no overflow).
-/
namespace Verif.Assignment
open Verif Verif.Tree
variable {α : Type} [DecidableEq α]

/-- assignment/assignment.go:11-15 `Assignment`: the key sets of the two maps -/
structure Asg (α : Type) where
  pos : List α
  neg : List α

/-- assignment/assignment.go:17-20 `Empty` -/
def empty : Asg α := ⟨[], []⟩

/-- assignment/assignment.go:37-53 `AddLit`; `none` is the error -/
def addLit (a : Asg α) (l : Lit α) : Option (Asg α) :=
  if l.pos then
    if l.var ∈ a.neg then none else some ⟨a.pos.insert l.var, a.neg⟩
  else
    if l.var ∈ a.pos then none else some ⟨a.pos, a.neg.insert l.var⟩

/-- assignment/assignment.go:22-35 `New` -/
def new (ls : List (Lit α)) : Option (Asg α) := foldOpt addLit empty ls

/-- assignment/assignment.go:74-77 `Size` -/
def size (a : Asg α) : Nat := a.pos.length + a.neg.length

/-- assignment/assignment.go:110-122 `evaluateVariable`, `evaluateNegativeLiteral` -/
def evalLit (a : Asg α) (l : Lit α) : Bool :=
  if l.pos then decide (l.var ∈ a.pos)
  else if l.var ∈ a.neg then true else !decide (l.var ∈ a.pos)

/-- assignment/evaluate.go:57-65 `evaluateLhs` -/
def evalLhs (a : Asg α) : List (Int × Lit α) → Int
  | [] => 0
  | (k, l) :: ts => (if evalLit a l then k else 0) + evalLhs a ts

/-- assignment/evaluate.go:67-82 `evaluateComparator` -/
def evalCmp (lhs rhs : Int) : Cmp → Bool
  | .eq => decide (lhs = rhs)
  | .le => decide (lhs ≤ rhs)
  | .lt => decide (lhs < rhs)
  | .ge => decide (lhs ≥ rhs)
  | .gt => decide (lhs > rhs)

/-- the literals and coefficients `PBCOps` returns for a cardinality constraint (coefficients 1), formula/factory.go:706-712 -/
def ccTerms (xs : List α) : List (Int × Lit α) := xs.map fun x => (1, ⟨x, true⟩)

mutual
/-- assignment/evaluate.go:11-55 `Evaluate` -/
def evaluate (a : Asg α) : Fm α → Bool
  | .tru => true
  | .fls => false
  | .lit l => evalLit a l
  | .not f => !evaluate a f
  | .impl f g => !evaluate a f || evaluate a g
  | .equiv f g => evaluate a f == evaluate a g
  | .and fs => evaluateAnd a fs
  | .or fs => evaluateOr a fs
  | .cc c k xs => evalCmp (evalLhs a (ccTerms xs)) k c
  | .pbc c k ts => evalCmp (evalLhs a ts) k c
/-- the loop over the operands of a conjunction, evaluate.go:33-38 -/
def evaluateAnd (a : Asg α) : List (Fm α) → Bool
  | [] => true
  | f :: fs => if !evaluate a f then false else evaluateAnd a fs
/-- the loop over the operands of a disjunction, evaluate.go:41-46 -/
def evaluateOr (a : Asg α) : List (Fm α) → Bool
  | [] => false
  | f :: fs => if evaluate a f then true else evaluateOr a fs
end

/-- `f.Tristate`, formula/tristate.go -/
inductive Tri | tru | fls | undef
deriving DecidableEq

/-- assignment/evaluate.go:84-131 `evaluateCoeffs` -/
def evaluateCoeffs (minV maxV rhs : Int) (c : Cmp) : Tri :=
  let status := (if rhs ≥ minV then 1 else 0) + (if rhs > minV then 1 else 0) +
    (if rhs ≥ maxV then 1 else 0) + (if rhs > maxV then 1 else 0)
  match c with
  | .eq => if status = 0 ∨ status = 4 then .fls else .undef
  | .le => if status ≥ 3 then .tru else if status < 1 then .fls else .undef
  | .lt => if status > 3 then .tru else if status ≤ 1 then .fls else .undef
  | .ge => if status ≤ 1 then .tru else if status > 3 then .fls else .undef
  | .gt => if status < 1 then .tru else if status ≥ 3 then .fls else .undef

/-- assignment/assignment.go:124-147 `restrictVariable`, `restrictNegativeLiteral` -/
def restrictLit (a : Asg α) (l : Lit α) : Fm α :=
  if l.pos then
    if l.var ∈ a.pos then .tru else if l.var ∈ a.neg then .fls else .lit l
  else
    if l.var ∈ a.pos then .fls else if l.var ∈ a.neg then .tru else .lit l

/-- variables of the loop in assignment/restrict.go:46-52 -/
structure RAcc (α : Type) where
  terms : List (Int × Lit α)
  lhsFixed : Int
  minV : Int
  maxV : Int

/-- loop body, assignment/restrict.go:53-72 -/
def restrictStep (a : Asg α) (r : RAcc α) (t : Int × Lit α) : RAcc α :=
  match restrictLit a t.2 with
  | .lit _ =>
    let r := { r with terms := r.terms ++ [t] }
    if t.1 > 0 then { r with maxV := r.maxV + t.1 } else { r with minV := r.minV + t.1 }
  | .tru => { r with lhsFixed := r.lhsFixed + t.1 }
  | _ => r

/-- assignment/restrict.go:43-90 `restrict` -/
def restrictPBC (a : Asg α) (c : Cmp) (k : Int) (ts : List (Int × Lit α)) : Fm α :=
  let r := ts.foldl (restrictStep a) ⟨[], 0, 0, 0⟩
  if r.terms.isEmpty then tConst (evalCmp r.lhsFixed k c)
  else
    let k' := k - r.lhsFixed
    if c ≠ .eq then
      match evaluateCoeffs r.minV r.maxV k' c with
      | .tru => .tru
      | .fls => .fls
      | .undef => tPBC c k' r.terms
    else tPBC c k' r.terms

mutual
/-- assignment/restrict.go:12-41 `Restrict`; `cons` is the factory option -/
def restrict (cons : Bool) (a : Asg α) : Fm α → Fm α
  | .tru => .tru
  | .fls => .fls
  | .lit l => restrictLit a l
  | .not f => tNot (restrict cons a f)
  | .impl f g => tImpl cons (restrict cons a f) (restrict cons a g)
  | .equiv f g => tEquiv cons (restrict cons a f) (restrict cons a g)
  | .and fs => tAnd cons (restrictL cons a fs)
  | .or fs => tOr cons (restrictL cons a fs)
  | .cc c k xs => restrictPBC a c k (ccTerms xs)
  | .pbc c k ts => restrictPBC a c k ts
def restrictL (cons : Bool) (a : Asg α) : List (Fm α) → List (Fm α)
  | [] => []
  | f :: fs => restrict cons a f :: restrictL cons a fs
end

/-! ### evaluate_to_constant.go -/

def isConst : Fm α → Bool
  | .tru => true
  | .fls => true
  | _ => false

/-- evaluationContext, evaluate_to_constant.go:187-191; the Go map is a list of entries with distinct keys -/
structure Ctx (α : Type) where
  cons : Bool
  toTrue : Bool
  mapping : List (α × Bool)

/-- evaluate_to_constant.go:46-52: literal case of `test` -/
def testLit (c : Ctx α) (l : Lit α) : Fm α :=
  match c.mapping.lookup l.var with
  | none => .lit l
  | some b => tConst (l.pos == b)

/-- tail of `handleNot`, evaluate_to_constant.go:71-79 -/
def notPost (c : Ctx α) (top : Bool) (r : Fm α) : Fm α :=
  if top && !isConst r then tConst (!c.toTrue)
  else if isConst r then tConst (decide (r = .fls))
  else tNot r

/-- evaluate_to_constant.go:170-177 `handlePbc`: the errors of `AddLit` are ignored -/
def ctxAsg (c : Ctx α) : Asg α :=
  c.mapping.foldl (fun a e => (addLit a ⟨e.1, e.2⟩).getD a) empty

/-- result of `test` on a formula (first component) and on the factory's negation of it (second component), both as functions of
`topLevel`.  For a compound formula whose `Not` is a new negation node, the second component is `handleNot`. -/
abbrev Res (α : Type) : Type := (Bool → Fm α) × (Bool → Fm α)

/-- second component by `handleNot` (evaluate_to_constant.go:70-80) -/
def withNot (c : Ctx α) (p : Bool → Fm α) : Res α := (p, fun top => notPost c top (p false))

/-- evaluate_to_constant.go:82-108 `handleImplication` -/
def implCase (c : Ctx α) (f g : Res α) (top : Bool) : Fm α :=
  let l := f.1 false
  if isConst l then
    if c.toTrue then
      if l = .fls then .tru else g.1 top
    else
      if l = .tru then g.1 top else .tru
  else if !c.toTrue && top then .tru
  else
    let r := g.1 false
    if isConst r then
      if r = .tru then .tru else tNot l
    else tImpl c.cons l r

/-- evaluate_to_constant.go:110-132 `handleEquivalence` (line 117 tests `Not(right)`) -/
def equivCase (c : Ctx α) (f g : Res α) (top : Bool) : Fm α :=
  let l := f.1 false
  if isConst l then
    if l = .tru then g.1 top else g.2 top
  else
    let r := g.1 false
    if isConst r then
      if top then tConst (!c.toTrue)
      else if r = .tru then l else tNot l
    else tEquiv c.cons l r

mutual
/-- evaluate_to_constant.go:42-68 `test` -/
def test2 (c : Ctx α) : Fm α → Res α
  | .tru => (fun _ => .tru, fun _ => .fls)
  | .fls => (fun _ => .fls, fun _ => .tru)
  | .lit l => (fun _ => testLit c l, fun _ => testLit c l.neg)
  | .not f => let p := test2 c f; (fun top => notPost c top (p.1 false), p.1)
  | .impl f g => let p := test2 c f; let q := test2 c g; withNot c (implCase c p q)
  | .equiv f g => let p := test2 c f; let q := test2 c g; withNot c (equivCase c p q)
  | .or fs => withNot c (fun top => testOr c fs top [])
  | .and fs => withNot c (fun top => testAnd c fs top [])
  | .cc m k xs => withNot c (fun _ => restrictPBC (ctxAsg c) m k (ccTerms xs))
  | .pbc m k ts => withNot c (fun _ => restrictPBC (ctxAsg c) m k ts)
/-- loop of `handleOr`, evaluate_to_constant.go:137-150 -/
def testOr (c : Ctx α) : List (Fm α) → Bool → List (Fm α) → Fm α
  | [], _, nops => tOr c.cons nops
  | f :: fs, top, nops =>
    let r := (test2 c f).1 (!c.toTrue && top)
    if r = .tru then .tru
    else if !isConst r then
      if !c.toTrue && top then .tru else testOr c fs top (nops ++ [r])
    else testOr c fs top nops
/-- loop of `handleAnd`, evaluate_to_constant.go:155-168 -/
def testAnd (c : Ctx α) : List (Fm α) → Bool → List (Fm α) → Fm α
  | [], _, nops => tAnd c.cons nops
  | f :: fs, top, nops =>
    let r := (test2 c f).1 (c.toTrue && top)
    if r = .fls then .fls
    else if !isConst r then
      if c.toTrue && top then .fls else testAnd c fs top (nops ++ [r])
    else testAnd c fs top nops
end

/-- evaluate_to_constant.go:42-68 `test` -/
def test (c : Ctx α) (f : Fm α) (top : Bool) : Fm α := (test2 c f).1 top

/-- evaluate_to_constant.go:20-23 -/
def evaluatesToTrue (cons : Bool) (m : List (α × Bool)) (f : Fm α) : Bool :=
  decide (test ⟨cons, true, m⟩ f true = .tru)
/-- evaluate_to_constant.go:37-40 -/
def evaluatesToFalse (cons : Bool) (m : List (α × Bool)) (f : Fm α) : Bool :=
  decide (test ⟨cons, false, m⟩ f true = .fls)

end Verif.Assignment
