import Verif.Util
import Verif.Assignment.Model
/-!
# Model of formula graphs, connected components and of `model/count`

`graph/formula_graph.go`, `graph/constraint_graph.go`, `graph/connected_components.go`, `model/count/dnnf_counting.go`.  The nodes of the graphs are variables.
-/
namespace Verif.Graph
open Verif Verif.Tree Verif.Assignment
variable {α : Type} [DecidableEq α]

/-- formula_graph.go:10-14 `FormulaGraph`; the map `nodeCache` is the position in `nodes` -/
structure FG (α : Type) where
  nodes : List α
  adj : Nat → List Nat

/-- formula_graph.go:17-19 -/
def newFG : FG α := ⟨[], fun _ => []⟩

/-- formula_graph.go:42-51 `AddNode` -/
def addNode (g : FG α) (x : α) : FG α × Nat :=
  if x ∈ g.nodes then (g, g.nodes.idxOf x) else ({ g with nodes := g.nodes ++ [x] }, g.nodes.length)

/-- `slices.BinarySearch` and `slices.Insert` on a sorted slice -/
def insertSorted (n : Nat) : List Nat → List Nat
  | [] => [n]
  | m :: l => if n < m then n :: m :: l else if n = m then m :: l else m :: insertSorted n l

/-- formula_graph.go:54-67 `Connect` -/
def connect (g : FG α) (x y : α) : FG α :=
  let r1 := addNode g x
  let r2 := addNode r1.1 y
  if r1.2 ≠ r2.2 then
    let adj1 := fun i => if i = r1.2 then insertSorted r2.2 (r2.1.adj i) else r2.1.adj i
    { r2.1 with adj := fun i => if i = r2.2 then insertSorted r1.2 (adj1 i) else adj1 i }
  else r2.1

/-- constraint_graph.go:21-25, the two loops -/
def connectAll (g : FG α) : List α → FG α
  | [] => g
  | x :: xs => connectAll (xs.foldl (fun g y => connect g x y) g) xs

/-- constraint_graph.go:16-26 `addSubformula`; `content` lists the variables of a formula in the order of the variable set -/
def addSubformula (content : Fm α → List α) (g : FG α) (f : Fm α) : FG α :=
  let vs := content f
  connectAll (match vs with | [x] => (addNode g x).1 | _ => g) vs

/-- constraint_graph.go:8-14 `GenerateConstraintGraph` -/
def constraintGraph (content : Fm α → List α) (fs : List (Fm α)) : FG α := fs.foldl (addSubformula content) newFG

/-- connected_components.go:27-35 `deepFirstSearch`: the component found so far (as positions) and the marked nodes; `none` is exhausted fuel (recursion depth) -/
def dfs (g : FG α) : Nat → Nat → List Nat × (Nat → Bool) → Option (List Nat × (Nat → Bool))
  | 0, _, _ => none
  | n + 1, v, st =>
    foldOpt (fun st w => if st.2 w then some st else dfs g n w st) (st.1 ++ [v], fun i => if i = v then true else st.2 i) (g.adj v)

/-- connected_components.go:18-23, the loop; `none` is exhausted fuel -/
def ccLoop (g : FG α) : Nat → Option Nat → (Nat → Bool) → List (List Nat) → Option (List (List Nat))
  | _, none, _, acc => some acc
  | 0, some _, _, _ => none
  | n + 1, some i, marked, acc =>
    match dfs g g.nodes.length i ([], marked) with
    | none => none
    | some (comp, marked') => ccLoop g n ((List.range g.nodes.length).find? fun i => !marked' i) marked' (acc ++ [comp])

/-- connected_components.go:12-25 `ComputeConnectedComponents` -/
def components (g : FG α) : Option (List (List α)) :=
  if g.nodes = [] then some []
  else (ccLoop g g.nodes.length (some 0) (fun _ => false) []).map fun cs => cs.map fun c => c.filterMap fun i => g.nodes[i]?

/-- connected_components.go:43-48, the map from variables to component numbers (later components overwrite) -/
def varMap (comps : List (List α)) (x : α) : Option Nat := ((List.range comps.length).filter fun i => decide (x ∈ (comps[i]?).getD [])).getLast?

/-- connected_components.go:53-66, loop body of `SplitFormulasByComponent`; `none` is the panic.  A formula without variables is a constant,
`IsNeg` holds for false only. -/
def splitStep (content : Fm α → List α) (comps : List (List α)) (r : List (List (Fm α))) (f : Fm α) : Option (List (List (Fm α))) :=
  match content f with
  | x :: _ => match varMap comps x with
    | none => none
    | some i => some (r.modify i (· ++ [f]))
  | [] => if f = .fls then some (r ++ [[.fls]]) else some r

/-- connected_components.go:42-69 `SplitFormulasByComponent` -/
def split (content : Fm α → List α) (comps : List (List α)) (fs : List (Fm α)) : Option (List (List (Fm α))) :=
  foldOpt (splitStep content comps) (comps.map fun _ => []) fs

/-! ### model/count/dnnf_counting.go -/

/-- the conversions used by the counter: expansion and CNF of a formula (`none` is the error), and compilation to a DNNF with its model count -/
structure Tools (α : Type) where
  cnf : Fm α → Option (Fm α)
  dnnfCount : Fm α → Nat

/-- dnnf_counting.go:118-132 `count` -/
def countC (cons : Bool) (content : Fm α → List α) (T : Tools α) (fs : List (Fm α)) : Option Nat :=
  match components (constraintGraph content fs) with
  | none => none
  | some ccs => match split content ccs fs with
    | none => none
    | some comps => some (comps.foldl (fun n c => n * T.dnnfCount (tAnd cons c)) 1)

/-- dnnf_counting.go:94-100, loop body of `simplify`; an error of `AddLit` is ignored (`AddLit` leaves the assignment unchanged then) -/
def bbStep (r : Asg α × List α) (f : Fm α) : Asg α × List α :=
  match f with
  | .lit l => ((addLit r.1 l).getD r.1, r.2.insert l.var)
  | _ => r

/-- dnnf_counting.go:91-101, the unit literals of the list -/
def simpleBackbone (fs : List (Fm α)) : Asg α × List α := fs.foldl bbStep (empty, [])

/-- dnnf_counting.go:90-110 `simplify` -/
def simplify (cons : Bool) (fs : List (Fm α)) : List (Fm α) × List α :=
  let b := simpleBackbone fs
  ((fs.map (restrict cons b.1)).filter fun f => decide (f ≠ .tru), b.2)

/-- dnnf_counting.go:140-145 `getDontCareVariables` -/
def dontCare (vars : List α) (fs : List (Fm α)) (bb : List α) : List α :=
  (vars.filter fun x => !(fs.flatMap Fm.vars).contains x).filter fun x => !bb.contains x

/-- results of `CountWithHandler` without cancellation -/
inductive CountRes
  | panic
  | error
  | ok (n : Nat)
deriving DecidableEq

/-- dnnf_counting.go:42-77 `CountWithHandler` (with a handler that never cancels); `vars` are the elements of the variable set -/
def countTop (cons : Bool) (content : Fm α → List α) (T : Tools α) (vars : List α) (fs : List (Fm α)) : CountRes :=
  if !(fs.flatMap Fm.vars).all (fun x => vars.contains x) then .panic
  else if vars = [] then
    if fs.all (fun f => decide (f = .tru)) then .ok 1 else .ok 0
  else match fs.mapM T.cnf with
    | none => .error
    | some cnfs =>
      let s := simplify cons cnfs
      match countC cons content T s.1 with
      | none => .panic
      | some n => .ok (n * 2 ^ (dontCare vars s.1 s.2).length)

end Verif.Graph
