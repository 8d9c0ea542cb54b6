import Verif.Dnnf.Count
import Verif.Sat.Model
import Verif.Simpl.Model
import Verif.Simpl.Subsumption
/-!
# The DNNF compiler

`/repo/dnnf/compiler.go`, `dtree.go`, `dtree_generator.go`, `/repo/sat/dnnf_solver.go`, on top of the model of the SAT core.

Simplifications
* The variables are numbers in the order of their ids in the factory.  A negative literal has the smaller id (factory.go:484-495).
* Bit sets are ascending lists of numbers below the number of variables.  Keys of different word length are different in the code even if they have the same bits; here
  they are equal.  (All bit sets have one word if clauses and variables together are at most 62.)
* The array `assignment` of the solver holds the values of the core and is not repeated.
* The handler is the one that never cancels.
* `O` gives the heuristic choices in the conflict analysis (whether the clause is short enough for the minimisation with binary clauses).
* The array bounds of `localCacheKeys`, `localOccurrences` are not modelled.
* Recursion and loops without an obvious bound take fuel; `none` means that it is used up or that the code panics.
-/
namespace Verif.Dnnf
open Verif Verif.Sat Verif.Tree

/-- the order of the literals in a factory, formula/factory.go:484-495 -/
def litKey (l : Lit Nat) : Nat := 2 * l.var + if l.pos then 1 else 0

/-! ## the solver -/

/-- dnnf_solver.go:24-32 `DnnfSolver`; `names` gives the names of the solver variables -/
structure DS where
  s : S
  names : List Nat
  dirty : Bool
  asLevel : Option Nat
  last : Nat × List Nat
  conflicts : Nat

/-- dnnf_solver.go:34-46 `NewDnnfSolver` -/
def DS.init : DS := ⟨.init, [], false, none, (0, []), 0⟩

/-- dnnf_solver.go:57-60 `VariableIndex` and core.go:117-125 `MkLit` -/
def toSolver (names : List Nat) (l : Lit Nat) : Nat := 2 * names.idxOf l.var + if l.pos then 0 else 1

/-- dnnf_solver.go:206-209 `intToLiteral` -/
def toLit (names : List Nat) (l : Nat) : Lit Nat := ⟨names.getD (l / 2) 0, l % 2 == 0⟩

/-- dnnf_solver.go:168-173: an unknown variable is made on the solver -/
def DS.know (d : DS) (l : Lit Nat) : DS := if l.var ∈ d.names then d else { d with s := newVar d.s, names := d.names ++ [l.var] }

/-- dnnf_solver.go:75-80 and 164-183 `generateClauseVector`: add a clause -/
def DS.addCl (fuel : Nat) (d : DS) (c : List (Lit Nat)) : Option DS :=
  let d := c.foldl DS.know d
  match addClause fuel d.s (c.map (toSolver d.names)) with
  | none => none
  | some (s, _) => some { d with s := s }

/-- dnnf_solver.go:185-204 `propagateAfterDecide`, `handleConflict` -/
def DS.pad (O : Nat → Choice) (fuel : Nat) (d : DS) : Option (DS × Bool) :=
  match propagate fuel d.s with
  | none => none
  | some (s, none) => some ({ d with s := s }, true)
  | some (s, some c) =>
    if 0 < s.dl then
      match analyze .deep fuel (O d.conflicts) s c with
      | none => none
      | some (l0, out, bt, seen) => some ({ d with s := { s with seen := seen }, last := (l0, out), asLevel := some bt, conflicts := d.conflicts + 1 }, false)
    else some ({ d with s := cancelUntil s 0, last := (0, []), asLevel := none }, false)

/-- dnnf_solver.go:84-90 `Decide` -/
def DS.decide (O : Nat → Choice) (fuel : Nat) (d : DS) (v : Nat) (phase : Bool) : Option (DS × Bool) :=
  DS.pad O fuel { d with dirty := true, s := decideLit d.s (2 * v + if phase then 0 else 1) }

/-- dnnf_solver.go:92-95 `UndoDecide`, 146-162 `cancelUntilDnnf` -/
def DS.undo (d : DS) (v : Nat) : DS := { d with dirty := false, s := cancelUntil d.s (d.s.level v - 1) }

/-- dnnf_solver.go:97-99 `AtAssertionLevel` -/
def DS.atLevel (d : DS) : Bool := d.asLevel == some d.s.dl

/-- dnnf_solver.go:101-117 `AssertCdLiteral` -/
def DS.assertCd (O : Nat → Choice) (fuel : Nat) (d : DS) : Option (DS × Bool) :=
  DS.pad O fuel { d with dirty := true, s := learn d.s d.last.1 d.last.2 }

/-- dnnf_solver.go:119-138 `NewlyImplied`: the literals of the last level without its decision, newest first -/
def DS.newly (cons : Bool) (d : DS) (known : List Nat) : Fm Nat × DS :=
  let lits := match d.s.trailLim with
    | [] => d.s.trail
    | lim :: _ => d.s.trail.take (d.s.trail.length - (lim + 1))
  (tAnd cons (if d.dirty then (lits.filter fun l => known.contains (l / 2)).map fun l => .lit (toLit d.names l) else []), { d with dirty := false })

/-! ## the tree of the clauses -/

/-- dtree.go:22-58: a tree before `initialize` -/
inductive DT
  | leaf (id : Nat) (c : List (Lit Nat))
  | node (l r : DT)
  deriving Repr

/-- dtree.go:95-97, 191-193 `staticVariableSet` -/
def DT.vars : DT → List Nat
  | .leaf _ c => c.map (·.var)
  | .node l r => l.vars ++ r.vars

/-- dtree_generator.go:64-71 `compose`; the empty list recurses for ever in the code -/
def compose : Nat → List DT → Option DT
  | 0, _ => none
  | _ + 1, [t] => some t
  | k + 1, ts =>
    match compose k (ts.take (ts.length / 2)), compose k (ts.drop (ts.length / 2)) with
    | some l, some r => some (.node l r)
    | _, _ => none

/-- pairs of different positions -/
def pairs : List Nat → List (Nat × Nat)
  | [] => []
  | x :: xs => xs.map (x, ·) ++ pairs xs

/-- both directions -/
def sym (es : List (Nat × Nat)) : List (Nat × Nat) := es ++ es.map fun e => (e.2, e.1)

/-- dtree_generator.go:80-126 `newGraph`: the pairs of variables with a common clause -/
def adjOf (cs : List (List (Lit Nat))) : List (Nat × Nat) := sym (cs.flatMap fun c => pairs (c.map (·.var)))

/-- dtree_generator.go:146-161, 174-192: the pairs of open neighbours of `x` without an edge -/
def fillIn (vs : List Nat) (adj : List (Nat × Nat)) (done : List Nat) (x : Nat) : List (Nat × Nat) :=
  (pairs (vs.filter fun y => adj.contains (x, y) && !done.contains y)).filter fun e => !adj.contains e

/-- dtree_generator.go:140-172: the first of the open vertices with the fewest new edges -/
def bestVertex (vs : List Nat) (adj : List (Nat × Nat)) (done : List Nat) : List Nat → Option Nat → Option Nat
  | [], b => b
  | x :: xs, b =>
    if done.contains x then bestVertex vs adj done xs b
    else match b with
      | none => bestVertex vs adj done xs (some x)
      | some y => bestVertex vs adj done xs (some (if (fillIn vs adj done x).length < (fillIn vs adj done y).length then x else y))

/-- dtree_generator.go:128-198 `getMinFillOrdering` -/
def minFill (vs : List Nat) : Nat → List (Nat × Nat) → List Nat → List Nat
  | 0, _, done => done
  | k + 1, adj, done =>
    match bestVertex vs adj done vs none with
    | none => done
    | some x => minFill vs k (adj ++ sym (fillIn vs adj done x)) (done ++ [x])

/-- dtree_generator.go:43-60: the trees with the variable are put together -/
def eliminate (sigma : Option (List DT)) (x : Nat) : Option (List DT) :=
  match sigma with
  | none => none
  | some ts =>
    match ts.filter fun t => t.vars.contains x with
    | [] => some ts
    | g =>
      match compose (g.length + 1) g with
      | none => none
      | some t => some ((ts.filter fun t => !t.vars.contains x) ++ [t])

/-- dtree_generator.go:37-41 -/
def leaves0 : Nat → List (List (Lit Nat)) → List DT
  | _, [] => []
  | i, c :: cs => .leaf i c :: leaves0 (i + 1) cs

/-- dtree_generator.go:25-62 `generateWithEliminatingOrder` -/
def treeOf (cs : List (List (Lit Nat))) (ordering : List Nat) : Option DT :=
  match ordering.foldl eliminate (some (leaves0 0 cs)) with
  | none => none
  | some ts => compose (ts.length + 1) ts

/-- formula/set.go:202-240: the variables of the clauses, ascending -/
def allVars (cs : List (List (Lit Nat))) : List Nat :=
  let vs := cs.flatMap fun c => c.map (·.var)
  (List.range (vs.foldr max 0 + 1)).filter fun x => vs.contains x

/-- a tree after `initialize`: `known` is `statVarSet`, `lits` the solver literals -/
inductive IT
  | leaf (known : List Nat) (id : Nat) (c : List (Lit Nat)) (lits : List Nat)
  | node (known : List Nat) (l r : IT)

/-- dtree.go:71-84, 148-182 `initialize`.  Line 152 takes the set of the left child and line 153 adds the variables of the right child *to that very set*, so that a left child
has the set of its parent: `known` is what the set of the node holds at the end. -/
def initTree (names : List Nat) : DT → List Nat → IT
  | .leaf id c, known => .leaf known id c (c.map (toSolver names))
  | .node l r, known => .node known (initTree names l known) (initTree names r (r.vars.map names.idxOf))

/-- `staticVarSet` -/
def IT.known : IT → List Nat
  | .leaf k _ _ _ => k
  | .node k _ _ => k

/-- dtree.go:125-133, 239-247: the leaves with more than one literal -/
def IT.leaves : IT → List (Nat × List Nat)
  | .leaf _ id _ lits => if 1 < lits.length then [(id, lits)] else []
  | .node _ l r => l.leaves ++ r.leaves

/-- dtree.go:110-117 `isSubsumed` -/
def subsumed (s : S) (lits : List Nat) : Bool := lits.any fun l => s.value l == some true

/-- dtree.go:273-293 `varSet`: the open variables of the open clauses -/
def openVars (s : S) (ls : List (Nat × List Nat)) : List Nat :=
  ls.flatMap fun e => if subsumed s e.2 then [] else (e.2.filter fun l => s.value l == none).map (· / 2)

/-- dtree.go:89, 195-202 `dynamicSeparator` -/
def separator (s : S) : IT → List Nat
  | .leaf .. => []
  | .node _ l r => (List.range s.nVars).filter fun v => (openVars s l.leaves).contains v && (openVars s r.leaves).contains v

/-- dtree.go:99-108: the open clauses with the variable -/
def occurrences (s : S) (t : IT) (v : Nat) : Nat := t.leaves.foldl (fun n e => if subsumed s e.2 then n else n + (e.2.map (· / 2)).count v) 0

/-- compiler.go:252-273 `chooseShannonVariable` -/
def chooseVar (s : S) (t : IT) : List Nat → Option Nat → Option Nat
  | [], b => b
  | v :: vs, none => chooseVar s t vs (some v)
  | v :: vs, some b => chooseVar s t vs (some (if occurrences s t b < occurrences s t v then v else b))

/-- dtree.go:216-237 `cacheKey`: the open clauses and their open variables -/
def cacheKey (s : S) (t : IT) : List Nat × List Nat :=
  ((t.leaves.filter fun e => !subsumed s e.2).map (·.1), (List.range s.nVars).filter fun v => (openVars s t.leaves).contains v)

/-! ## the compiler -/

/-- compiler.go:325-341 `leaf2ddnnf` -/
def leafLoop (cons : Bool) (s : S) (names : List Nat) : List (Lit Nat) → List (Fm Nat) → List (Lit Nat) → Fm Nat
  | [], ops, _ => tOr cons ops
  | l :: ls, ops, cur =>
    match s.value (toSolver names l) with
    | some true => .tru
    | some false => leafLoop cons s names ls ops cur
    | none => leafLoop cons s names ls (ops ++ [tAnd cons ((cur ++ [l]).map .lit)]) (cur ++ [l.neg])

/-- the solver and the cache -/
structure St where
  d : DS
  cache : List ((List Nat × List Nat) × Fm Nat)

/-- the functions of the compiler that call each other -/
inductive Job
  | inner (t : IT)
  | aux (t : IT)

/-- compiler.go:192-250 `cnf2ddnnf`, `cnf2ddnnfInner`, 275-296 `conjoin`, 298-316 `cnfAux` -/
def run (cons : Bool) (O : Nat → Choice) (fuel : Nat) : Nat → Job → St → Option (Fm Nat × St)
  | 0, _, _ => none
  | k + 1, .aux t, st =>
    match t with
    | .leaf _ _ c _ => some (leafLoop cons st.d.s st.d.names c [] [], st)
    | .node .. =>
      let key := cacheKey st.d.s t
      match st.cache.lookup key with
      | some f => some (f, st)
      | none =>
        match run cons O fuel k (.inner t) st with
        | none => none
        | some (f, st) => some (f, if f = .fls then st else { st with cache := (key, f) :: st.cache })
  | k + 1, .inner t, st =>
    let sep := separator st.d.s t
    let r := st.d.newly cons t.known
    let implied := r.1
    let st := { st with d := r.2 }
    match chooseVar st.d.s t sep none with
    | none =>
      match t with
      | .leaf _ _ c _ => some (tAnd cons [implied, leafLoop cons st.d.s st.d.names c [] []], st)
      | .node _ l r =>
        if implied = .fls then some (.fls, st)
        else match run cons O fuel k (.aux l) st with
          | none => none
          | some (left, st) =>
            if left = .fls then some (.fls, st)
            else match run cons O fuel k (.aux r) st with
              | none => none
              | some (right, st) => if right = .fls then some (.fls, st) else some (tAnd cons [implied, left, right], st)
    | some v =>
      -- 223-226, 239-242
      let again := fun st : St =>
        if st.d.atLevel then
          match st.d.assertCd O fuel with
          | none => none
          | some (d, true) => run cons O fuel k (.inner t) { st with d := d }
          | some (d, false) => some (.fls, { st with d := d })
        else some (.fls, st)
      -- 213-221, 229-237
      let branch := fun (st : St) (phase : Bool) =>
        match st.d.decide O fuel v phase with
        | none => none
        | some (d, ok) =>
          match if ok then run cons O fuel k (.inner t) { st with d := d } else some (.fls, { st with d := d }) with
          | none => none
          | some (f, st) => some (f, { st with d := st.d.undo v })
      match branch st true with
      | none => none
      | some (pos, st) =>
        if pos = .fls then again st
        else match branch st false with
          | none => none
          | some (neg, st) =>
            if neg = .fls then again st
            else
              let x := st.d.names.getD v 0
              some (tAnd cons [implied, tOr cons [tAnd cons [.lit ⟨x, true⟩, pos], tAnd cons [.lit ⟨x, false⟩, neg]]], st)

/-- the literals of a clause, ascending -/
def clauseOf (f : Fm Nat) : List (Lit Nat) := Simpl.termSet litKey f

/-- the operands of a conjunction; the formula itself otherwise (dnnf_solver.go:72-81) -/
def clausesOf : Fm Nat → List (Fm Nat)
  | .and fs => fs
  | .tru => []
  | f => [f]

/-- formula/formula.go:278-281 `IsAtomic` -/
def isAtom : Fm Nat → Bool
  | .fls => true
  | .tru => true
  | .lit _ => true
  | .cc .. => true
  | .pbc .. => true
  | _ => false

/-- compiler.go:117-135 `initializeClauses` -/
def unitsOf (cons : Bool) : Fm Nat → Fm Nat × Fm Nat
  | .and fs => (tAnd cons (fs.filter isAtom), tAnd cons (fs.filter fun f => !isAtom f))
  | .or fs => (tAnd cons [], tAnd cons [.or fs])
  | f => (tAnd cons [f], tAnd cons [])

/-- compiler.go:57-71, 106-166 `newCompiler`, `compile`, `generateDtree`, `compileWithTree`; `sat` is the answer of `IsSatisfiable` -/
def compile (cons : Bool) (O : Nat → Choice) (fuel : Nat) (sat : Bool) (f : Fm Nat) : Option (Fm Nat) :=
  let (units, nonUnits) := unitsOf cons f
  match (clausesOf f).foldlM (fun d g => d.addCl fuel (clauseOf g)) DS.init with
  | none => none
  | some d =>
    if !sat then some .fls
    else if isAtom nonUnits then some f
    else
      let cs := (clausesOf nonUnits).map clauseOf
      let vs := allVars cs
      match treeOf cs (minFill vs vs.length (adjOf cs) []) with
      | none => none
      | some t =>
        let t := initTree d.names t (t.vars.map d.names.idxOf)
        match propagate fuel d.s with
        | none => none
        | some (_, some _) => some .fls
        | some (s, none) =>
          match run cons O fuel fuel (.inner t) ⟨{ d with dirty := true, s := s }, []⟩ with
          | none => none
          | some (g, _) => some (tAnd cons [units, g])

/-- compiler.go:51-55 `simplifyFormula`; `b` is the backbone -/
def simplifyCnf (cons : Bool) (b : Simpl.BB Nat) (f : Fm Nat) : Fm Nat :=
  match Simpl.cnfSubsumption cons litKey (fun _ => true) (Simpl.propagateBackbone cons f b) with
  | .ok g => g
  | _ => .fls

/-- compiler.go:25-37 `CompileWithHandler` for a formula whose CNF is `f`, without the variables -/
def compileCnf (cons : Bool) (O : Nat → Choice) (fuel : Nat) (b : Simpl.BB Nat) (sat : Bool) (f : Fm Nat) : Option (Fm Nat) :=
  compile cons O fuel sat (simplifyCnf cons b f)

end Verif.Dnnf
