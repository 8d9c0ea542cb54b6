import Verif.NormalForm.Model
import Verif.Assignment.Model
/-
Model of the package `simplification` (without the solver based simplifiers, see `Units.lean` and `Advanced.lean`): distribution, factor out,
negation minimisation, backbone propagation.  Formulas are trees built with the tree constructors of `Verif.Factory.Tree`; `cons` is the
factory option which keeps complementary operands.  Transformation caches are left out (they hold results of the same functions).
-/
namespace Verif.Simpl
open Verif Verif.Tree
variable {α : Type} [DecidableEq α]

/-- `fac.NaryOperator`: a conjunction (`d = true`) or a disjunction -/
def nary (cons d : Bool) (fs : List (Fm α)) : Fm α := if d then tAnd cons fs else tOr cons fs

/-- the operands, if the formula is a conjunction (`d = true`) resp. a disjunction -/
def opsOf (d : Bool) : Fm α → Option (List (Fm α))
  | .and fs => if d then some fs else none
  | .or fs => if d then none else some fs
  | _ => none

/-! ## Distribute -/

/-- the variables of the counting loop, simplification/distribution.go:44-46: the map from parts to sets of operands as a list of pairs without
repetitions, the part seen most often (`none`: still `Falsum`) and its amount -/
structure Cnt (α : Type) where
  pairs : List (Fm α × Fm α)
  best : Fm α
  amount : Nat

/-- the set stored for a part -/
def Cnt.opsWith (c : Cnt α) (part : Fm α) : List (Fm α) := (c.pairs.filter fun p => p.1 = part).map (·.2)

/-- the body of the inner loop, simplification/distribution.go:50-59 -/
def Cnt.add (op : Fm α) (c : Cnt α) (part : Fm α) : Cnt α :=
  let pairs := if (part, op) ∈ c.pairs then c.pairs else c.pairs ++ [(part, op)]
  let c := { c with pairs := pairs }
  if (c.opsWith part).length > c.amount then { c with best := part, amount := (c.opsWith part).length } else c

/-- the loops, simplification/distribution.go:47-62; `d` is the sort of the outer operator -/
def countParts (d : Bool) (operands : List (Fm α)) : Cnt α :=
  operands.foldl (fun c op => match opsOf (!d) op with
    | some parts => parts.foldl (Cnt.add op) c
    | none => c) ⟨[], .fls, 0⟩

/-- simplification/distribution.go:71-80: the operands of one operator without the common part -/
def dropPart (cons d : Bool) (part op : Fm α) : Fm α :=
  nary cons (!d) (((opsOf (!d) op).getD []).filter fun p => p ≠ part)

/-- simplification/distribution.go:38-86 `distributeNary` after the operands are distributed.  `operands` is the set of distributed operands,
`ord i` the order in which the `i`-th enumeration of a set lists its elements. -/
def distributeOps (cons d : Bool) (ord : Nat → List (Fm α) → List (Fm α)) (operands : List (Fm α)) : Fm α :=
  let c := countParts d (ord 0 operands)
  if c.best = .fls ∨ c.amount = 1 then nary cons d (ord 1 operands)
  else
    let set := c.opsWith c.best
    let rest := operands.filter fun op => op ∉ set
    let relevant := (ord 2 set).map (dropPart cons d c.best)
    let inner := nary cons (!d) [c.best, nary cons d relevant]
    nary cons d (ord 3 (rest.insert inner))

mutual
/-- simplification/distribution.go:14-36 `Distribute`; `ord` gives the orders of the set enumerations made for a formula -/
def distribute (cons : Bool) (ord : Fm α → Nat → List (Fm α) → List (Fm α)) : Fm α → Fm α
  | .tru => .tru
  | .fls => .fls
  | .lit l => .lit l
  | .cc c k xs => .cc c k xs
  | .pbc c k ts => .pbc c k ts
  | .not f => tNot (distribute cons ord f)
  | .impl f g => tImpl cons (distribute cons ord f) (distribute cons ord g)
  | .equiv f g => tEquiv cons (distribute cons ord f) (distribute cons ord g)
  | .and fs => distributeOps cons true (ord (.and fs)) (distributeL cons ord fs)
  | .or fs => distributeOps cons false (ord (.or fs)) (distributeL cons ord fs)
/-- the loop filling the set of operands, simplification/distribution.go:43-45 -/
def distributeL (cons : Bool) (ord : Fm α → Nat → List (Fm α) → List (Fm α)) : List (Fm α) → List (Fm α)
  | [] => []
  | f :: fs => (distributeL cons ord fs).insert (distribute cons ord f)
end

/-! ## FactorOut -/

/-- the subformulas counted for an operand, simplification/factor_out.go:106-123 -/
def countedIn : Fm α → List (Fm α)
  | .lit l => [.lit l]
  | .and gs => gs
  | .or gs => gs
  | _ => []

/-- the loop variables of `computeMaxOccurringSubformula`: what was counted so far, `maxCount`, `maxFormula` -/
structure MaxOcc (α : Type) where
  seen : List (Fm α)
  cnt : Nat
  fm : Fm α

/-- simplification/factor_out.go:108-112 -/
def MaxOcc.add (m : MaxOcc α) (x : Fm α) : MaxOcc α :=
  let n := m.seen.count x + 1
  if n > m.cnt then ⟨x :: m.seen, n, x⟩ else ⟨x :: m.seen, m.cnt, m.fm⟩

/-- simplification/factor_out.go:101-129 `computeMaxOccurringSubformula` on the operands of the formula -/
def maxOccurring (ops : List (Fm α)) : Option (Fm α) :=
  let m := (ops.flatMap countedIn).foldl MaxOcc.add ⟨[], 0, .fls⟩
  if m.cnt < 2 then none else some m.fm

/-- the body of the loop over the operands, simplification/factor_out.go:67-92: the formulas appended to `formulasWithRemoved` and to
`unchangedFormulas` -/
def factorStep (cons d : Bool) (x : Fm α) (r : List (Fm α) × List (Fm α)) (op : Fm α) : List (Fm α) × List (Fm α) :=
  let nary' (d' : Bool) (gs : List (Fm α)) :=
    let app := nary cons d' (gs.filter fun g => g ≠ x)
    if x ∈ gs then (r.1 ++ [app], r.2) else (r.1, r.2 ++ [app])
  match op with
  | .lit l => if .lit l = x then (r.1 ++ [tConst (!d)], r.2) else (r.1, r.2 ++ [.lit l])
  | .and gs => nary' true gs
  | .or gs => nary' false gs
  | op => (r.1, r.2 ++ [op])

/-- simplification/factor_out.go:59-99 `factorOut`; `d` is the sort of the formula, `ops` its operands -/
def factorOutOps (cons d : Bool) (ops : List (Fm α)) : Option (Fm α) :=
  match maxOccurring ops with
  | none => none
  | some x =>
    let r := ops.foldl (factorStep cons d x) ([], [])
    some (nary cons d [nary cons d r.2, nary cons (!d) [x, nary cons d r.1]])

/-- simplification/factor_out.go:48-57 `factorOutSimplify`; `less f g` is the comparison of the ratings of two formulas -/
def factorOutSimplify (cons d : Bool) (less : Fm α → Fm α → Bool) (f : Fm α) (ops : List (Fm α)) : Fm α :=
  match factorOutOps cons d ops with
  | none => f
  | some g => if less f g then f else g

/-- simplification/factor_out.go:34-37 -/
def factorOutTop (cons : Bool) (less : Fm α → Fm α → Bool) (f : Fm α) : Fm α :=
  match f with
  | .and ops => factorOutSimplify cons true less f ops
  | .or ops => factorOutSimplify cons false less f ops
  | f => f

/-- all results, if none is missing -/
def allSome {β : Type} : List (Option β) → Option (List β)
  | [] => some []
  | none :: _ => none
  | some x :: xs => (allSome xs).map (x :: ·)

/-- simplification/factor_out.go:13-24 `FactorOut`, 26-46 `factorOutRec`.  The loop runs until nothing changes; `none`: not finished within
`fuel` calls (`C36_factorOut` shows that this does not happen). -/
def factorOut (cons : Bool) (less : Fm α → Fm α → Bool) : Nat → Fm α → Option (Fm α)
  | 0, _ => none
  | fuel + 1, f =>
    let once := match f with
      | .and fs => (allSome (fs.map (factorOut cons less fuel))).map fun gs => factorOutTop cons less (tAnd cons gs)
      | .or fs => (allSome (fs.map (factorOut cons less fuel))).map fun gs => factorOutTop cons less (tOr cons gs)
      | .not f => (factorOut cons less fuel f).map tNot
      | f => some f
    match once with
    | none => none
    | some g => if g = f then some g else factorOut cons less fuel g

/-! ## MinimizeNegations -/

/-- simplification/negation_simplifier.go:103-109 `formattedLength`; `len` is the length of the printed formula -/
def formattedLength (len : Fm α → Nat) (top : Bool) (f : Fm α) : Nat :=
  match f with
  | .or fs => if top then len (.or fs) else len (.or fs) + 2
  | f => len f

/-- simplification/negation_simplifier.go:91-101 `getSmallestFormula` -/
def smallest (len : Fm α → Nat) (top : Bool) (f : Fm α) (fs : List (Fm α)) : Fm α :=
  fs.foldl (fun cur g => if formattedLength len top g < formattedLength len top cur then g else cur) f

/-- simplification/negation_simplifier.go:55-80 `findSmallestPositive` -/
def findSmallestPositive (cons : Bool) (len : Fm α → Nat) (d top : Bool) (rs : List (Fm α × Fm α)) : Fm α :=
  let smaller : Fm α × Fm α → Bool := fun r => formattedLength len false r.1 < formattedLength len false r.2
  let all := nary cons d (rs.map (·.1))
  let pos := nary cons d ((rs.filter smaller).map (·.1))
  let neg := nary cons (!d) ((rs.filter fun r => !smaller r).map (·.2))
  smallest len top all [nary cons d [pos, tNot neg]]

/-- simplification/negation_simplifier.go:82-89 `findSmallestNegative` -/
def findSmallestNegative (cons : Bool) (len : Fm α → Nat) (d top : Bool) (rs : List (Fm α × Fm α)) (pos : Fm α) : Fm α :=
  smallest len top (tNot pos) [nary cons (!d) (rs.map (·.2))]

/-- the two results of an operator, simplification/negation_simplifier.go:43-45 -/
def combineNeg (cons : Bool) (len : Fm α → Nat) (d top : Bool) (rs : List (Fm α × Fm α)) : Fm α × Fm α :=
  let pos := findSmallestPositive cons len d top rs
  (pos, findSmallestNegative cons len d top rs pos)

mutual
/-- simplification/negation_simplifier.go:27-53 `negationMinimize`; `none` is the panic -/
def negationMinimize (cons : Bool) (len : Fm α → Nat) (top : Bool) : Fm α → Option (Fm α × Fm α)
  | .lit l => some (.lit l, tNot (.lit l))
  | .and fs => (negationMinimizeL cons len fs).map (combineNeg cons len true top)
  | .or fs => (negationMinimizeL cons len fs).map (combineNeg cons len false top)
  | _ => none
/-- the loop over the operands, simplification/negation_simplifier.go:34-36 -/
def negationMinimizeL (cons : Bool) (len : Fm α → Nat) : List (Fm α) → Option (List (Fm α × Fm α))
  | [] => some []
  | f :: fs => match negationMinimize cons len false f, negationMinimizeL cons len fs with
    | some r, some rs => some (r :: rs)
    | _, _ => none
end

/-- formula/formula.go:278-281 `IsAtomic` -/
def isAtomic : Fm α → Bool
  | .tru => true
  | .fls => true
  | .lit _ => true
  | .cc _ _ _ => true
  | .pbc _ _ _ => true
  | _ => false

/-- simplification/negation_simplifier.go:17-25 `MinimizeNegations`; `enc` encodes the constraints (see `NF.nnf`) -/
def minimizeNegations (cons : Bool) (enc : Fm α → Fm α) (len : Fm α → Nat) (f : Fm α) : Option (Fm α) :=
  let nnf := NF.nnf cons enc f true
  if isAtomic nnf then some (smallest len true f [nnf])
  else (negationMinimize cons len true nnf).map fun r => smallest len true f [nnf, r.1]

/-! ## PropagateBackbone -/

/-- the result of `ComputeBackbone`: `none` for an unsatisfiable formula, otherwise the positive and the negative variables
(sat/backbone.go:14-22) -/
abbrev BB (α : Type) := Option (List α × List α)

/-- sat/backbone.go:38-51 `CompleteBackbone` -/
def completeBackbone (b : List α × List α) : List (Lit α) := b.1.map (⟨·, true⟩) ++ b.2.map (⟨·, false⟩)

/-- simplification/backbone.go:13-34 `PropagateBackbone`; `b` is the answer of the solver (C22).  Adding a literal whose variable has the other phase
already is an error, which the code ignores. -/
def propagateBackbone (cons : Bool) (f : Fm α) : BB α → Fm α
  | none => .fls
  | some b =>
    if b.2.length > 0 ∨ b.1.length > 0 then
      let ass := (completeBackbone b).foldl (fun a l => (Assignment.addLit a l).getD a) Assignment.empty
      tAnd cons [tMinterm (completeBackbone b), Assignment.restrict cons ass f]
    else f

end Verif.Simpl
