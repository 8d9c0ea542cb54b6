import Verif.Opt.Model
import Verif.Transform.Model
import Verif.NormalForm.Model
/-
Model of /repo/primeimplicant/computation.go and /repo/primeimplicant/minimum_implicant.go.
The answers of the solvers are given by oracles (`none`: cancelled); each question has a number.
-/
namespace Verif.Prime
open Verif Verif.Tree Verif.Opt Verif.Transform
set_option linter.unusedSectionVars false
variable {α : Type} [DecidableEq α]

/-- the answers of the solvers and of the handler -/
structure Orc (α : Type) where
  /-- `Maximize`/`Minimize` of the literals on a solver with the given formulas: the internal model -/
  opt : Nat → List (Fm α) → List (Lit α) → Option (Option (α → Bool))
  /-- satisfiability of a formula under assumptions -/
  sat : Nat → Fm α → List (Lit α) → Option Bool
  /-- the same with a model, given as list of literals over the given variables -/
  mdl : Nat → Fm α → List (Lit α) → List α → Option (Option (List (Lit α)))
  /-- answers of the handler to the events of this package -/
  go : Nat → Bool
  /-- order of iteration of sets of variables and of sets of literals -/
  ordV : List α → List α
  ordL : List (Lit α) → List (Lit α)

/-- computation.go:257-271, 281-299: loop of `reduceImplicant` (`asm = id`) and `reduceImplicate` (`asm = Lit.neg`); `base` is
the formula on the solver, `cur` the current set, `n` the number of the next question -/
def reduceLoop (o : Orc α) (base : Fm α) (asm : Lit α → Lit α) : List (Lit α) → List (Lit α) → Nat → Option (List (Lit α) × Nat)
  | [], cur, n => some (cur, n)
  | l :: ls, cur, n =>
    let cur1 := cur.filter (· ≠ l)
    match o.sat n base ((o.ordL cur1).map asm) with
    | none => none
    | some true => reduceLoop o base asm ls (cur1 ++ [l]) (n + 1)
    | some false => reduceLoop o base asm ls cur1 (n + 1)

/-- computation.go:250-273, 275-300 -/
def reduce (o : Orc α) (base : Fm α) (asm : Lit α → Lit α) (ls : List (Lit α)) (n : Nat) : Option (List (Lit α) × Nat) :=
  if o.go n then (reduceLoop o base asm ls ls.dedup (n + 1)).map fun r => (o.ordL r.1, r.2) else none

/-- computation.go:191-208 `createSubstitution`: `nv l` is the new variable of the literal `l` (its name with `_POS`, `_NEG`) -/
def substitution (nv : Lit α → α) (vars : List α) (l : Lit α) : Option (Lit α) :=
  if l.var ∈ vars then some ⟨nv l, true⟩ else none
def constraint (cons : Bool) (nv : Lit α → α) (vars : List α) : Fm α :=
  tAnd cons (vars.map fun x => tCC .le 1 [nv ⟨x, true⟩, nv ⟨x, false⟩])

/-- computation.go:112-116: the new variables as literals (sorted in the code; the order is immaterial) -/
def newLits (nv : Lit α → α) (vars : List α) : List (Lit α) := vars.flatMap fun x => [⟨nv ⟨x, true⟩, true⟩, ⟨nv ⟨x, false⟩, true⟩]

/-- computation.go:210-216 `transformModel`; `old` is `newVar2oldLit` -/
def transformModel (old : α → Lit α) (m : List (Lit α)) : List (Lit α) := (m.filter (·.pos)).map fun l => old l.var

/-- how the computation ends -/
inductive Out (α : Type)
  | ok (implicants implicates : List (List (Lit α)))
  | canceled
  /-- the model ran out of fuel -/
  | fuel

/-- computation.go:124-188: the loop; `h` are the formulas on `hSolver` -/
def loop (o : Orc α) (cons max : Bool) (nv : Lit α → α) (old : α → Lit α) (f : Fm α) (vars : List α) :
    Nat → Nat → List (Fm α) → List (List (Lit α)) → List (List (Lit α)) → Out α
  | 0, _, _, _, _ => .fuel
  | k + 1, n, h, imps, ics =>
    match o.opt n h (newLits nv vars) with
    | none => .canceled
    | some none => .ok imps ics
    | some (some v) =>
      let ls := transformModel old (resultModel o.ordV h (newLits nv vars) [] v)
      match o.mdl (n + 1) (tNot f) ls vars with
      | none => .canceled
      | some none =>
        match (if max then reduce o (tNot f) id ls (n + 2) else some (ls, n + 2) : Option (List (Lit α) × Nat)) with
        | none => .canceled
        | some (p, n') =>
          loop o cons max nv old f vars k n' (h ++ [tOr cons (p.map fun l => tNot (substLits cons (substitution nv vars) (.lit l)))])
            (imps ++ [p]) ics
      | some (some m) =>
        match reduce o f Lit.neg ((if max then ls else m).map Lit.neg) (n + 2) with
        | none => .canceled
        | some (c, n') =>
          loop o cons max nv old f vars k n' (h ++ [substLits cons (substitution nv vars) (tOr cons (c.map .lit))])
            imps (ics ++ [c])

/-- computation.go:105-189 `computeGeneric` -/
def computeGeneric (o : Orc α) (cons max : Bool) (nv : Lit α → α) (old : α → Lit α) (fuel : Nat) (f : Fm α) : Out α :=
  let vars := o.ordV f.vars.dedup
  loop o cons max nv old f vars fuel 1 [constraint cons nv vars] [] []

/-- computation.go:77-103 `compute`; `impl`: complete implicants (`CoverImplicants`) -/
def compute (o : Orc α) (cons impl max : Bool) (nv : Lit α → α) (old : α → Lit α) (fuel : Nat) (f : Fm α) : Out α :=
  if o.go 0 then
    match computeGeneric o cons max nv old fuel (if impl then f else tNot f) with
    | .ok a b => if impl then .ok a b else .ok (b.map (·.map Lit.neg)) (a.map (·.map Lit.neg))
    | r => r
  else .canceled

mutual
/-- formula/set.go `Literals`: the literals of a formula (for cardinality constraints the variables) -/
def lits : Fm α → List (Lit α)
  | .lit l => [l]
  | .not f => lits f
  | .and fs => litsL fs
  | .or fs => litsL fs
  | .impl f g => lits f ++ lits g
  | .equiv f g => lits f ++ lits g
  | .cc _ _ xs => xs.map fun x => ⟨x, true⟩
  | .pbc _ _ ts => ts.map (·.2)
  | .fls => []
  | .tru => []
def litsL : List (Fm α) → List (Lit α)
  | [] => []
  | f :: fs => lits f ++ litsL fs
end

/-- minimum_implicant.go:36-41 -/
def minConstraints (nv : Lit α → α) (ls : List (Lit α)) : List (Fm α) :=
  (ls.filter fun l => l.pos && decide (l.neg ∈ ls)).map fun l => tCC .le 1 [nv l, nv l.neg]

/-- minimum_implicant.go:13-57 `Minimum`; `enc` encodes constraints (in `NNF`). `some none`: error. The calls of the solver are not
cancelled (there is no handler), so `none` does not occur. The call `solver.Sat()` before `Minimize` is left out: the optimization fails in the same cases. -/
def minimum (o : Orc α) (cons : Bool) (enc : Fm α → Fm α) (nv : Lit α → α) (old : α → Lit α) (f : Fm α) : Option (Option (List (Lit α))) :=
  let nnf := NF.nnf cons enc f true
  let ls := o.ordL (lits nnf).dedup
  let h := substLits cons (fun l => if l ∈ ls then some ⟨nv l, true⟩ else none) nnf :: minConstraints nv ls
  let new : List (Lit α) := ls.map fun l => ⟨nv l, true⟩
  match o.opt 0 h new with
  | none => none
  | some none => some none
  | some (some v) => some (some (transformModel old (resultModel o.ordV h new [] v)))

end Verif.Prime
