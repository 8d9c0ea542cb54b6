import Verif.Util
import Verif.Spec.Formula
import Verif.Factory.Tree
/-!
# Model of `sat/optimizer_function.go`

The solver holds a list of formulas.  `call n fs` is the answer of the `n`-th solver call (`none`: cancelled, `some none`: unsatisfiable,
`some (some v)`: satisfiable with the internal model `v`); `resume n` is the answer of the handler to events of the optimization itself.
The incremental cardinality constraint (lines 133 and 158, `AddIncrementalCC`, `NewLowerBoundForSolver`) is represented by the constraint it enforces (C14).
Saving and loading the solver state around the optimization is represented by the list of formulas being local.
-/
namespace Verif.Opt
open Verif Verif.Tree
variable {α : Type}

/-- the answers of the solver, in the order of the calls -/
abbrev SatOracle (α : Type) := Nat → List (Fm α) → Option (Option (α → Bool))

/-- optimizer_function.go:100-109: the clauses that tie the `i`-th selector to the literal (`max`) or to its negation -/
def selClauses (max : Bool) (sel : Nat → α) (i : Nat) (l : Lit α) : List (Fm α) :=
  if max then [tClause [⟨sel i, false⟩, l], tClause [l.neg, ⟨sel i, true⟩]]
  else [tClause [⟨sel i, false⟩, l.neg], tClause [l, ⟨sel i, true⟩]]

/-- optimizer_function.go:94-109 (`n`: selectors generated so far) -/
def allSelClauses (max : Bool) (sel : Nat → α) : Nat → List (Lit α) → List (Fm α)
  | _, [] => []
  | n, l :: ls => selClauses max sel n l ++ allSelClauses max sel (n + 1) ls

/-- the selectors -/
def sels (sel : Nat → α) (n : Nat) : List α := (List.range n).map sel

/-- `len(currentModel.PosVars())` for the model over the selectors -/
def bound (v : α → Bool) (ss : List α) : Nat := (ss.filter v).length

/-- how the optimization ends: a model (or none), with or without success -/
inductive OptRes (α : Type)
  | done (m : Option (α → Bool))
  | canceled (m : Option (α → Bool))
  | fuel

/-- optimizer_function.go:141-162, the loop; `v` is the current internal model, `b` the current bound and the solver holds the constraint `≥ b + 1` -/
def improve (call : SatOracle α) (resume : Nat → Bool) (ss : List α) : Nat → Nat → List (Fm α) → (α → Bool) → Nat → OptRes α
  | 0, _, _, _, _ => .fuel
  | k + 1, n, fs, v, b =>
    let fs := fs ++ [tCC .ge (Int.ofNat (b + 1)) ss]
    match call n fs with
    | none => .canceled (some v)
    | some none => .done (some v)
    | some (some v') =>
      if resume n then
        if bound v' ss = ss.length then .done (some v') else improve call resume ss k (n + 1) fs v' (bound v' ss)
      else .canceled (some v')

/-- optimizer_function.go:79-165 `maximize`; the result is the internal model.  `n` numbers the first solver call. -/
def maximize (call : SatOracle α) (resume : Nat → Bool) (start : Bool) (sel : Nat → α) (n : Nat) (max : Bool) (content : List (Fm α)) (lits : List (Lit α)) : OptRes α :=
  if start then
    let ss := sels sel lits.length
    let fs := content ++ allSelClauses max sel 0 lits
    match call n fs with
    | none => .canceled none
    | some none => .done none
    | some (some v) =>
      if bound v ss = 0 then
        let fs := fs ++ [tCC .ge 1 ss]
        match call (n + 1) fs with
        | none => .canceled (some v)
        | some none => .done (some v)
        | some (some v') => improve call resume ss (lits.length + 1) (n + 2) fs v' (bound v' ss)
      else if bound v ss = ss.length then .done (some v)
      else improve call resume ss (lits.length + 1) (n + 1) fs v (bound v ss)
  else .canceled none

variable [DecidableEq α]

/-- the variables the solver knows: those of its formulas -/
def known (content : List (Fm α)) (x : α) : Bool := content.any fun f => decide (x ∈ f.vars)

/-- optimizer_function.go:58-77 `optimize` and core.go:1336-1346 `CreateModel`: the literals of the returned model.  `content` lists the content of the
variable set.  Only variables known to the solver *before* the optimization appear. -/
def resultModel (ord : List α → List α) (content : List (Fm α)) (lits : List (Lit α)) (additional : List α) (v : α → Bool) : List (Lit α) :=
  ((ord (additional ++ lits.map (·.var)).eraseDups).filter (known content)).map fun x => ⟨x, v x⟩

end Verif.Opt
