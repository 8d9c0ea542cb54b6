import Verif.Sat.Lit
import Mathlib.Data.List.Sort
/-!
# Model of the CDCL solver `sat/core.go`

Modelled: variables, clause store, watcher lists (long and binary), trail, propagation, conflict analysis with all minimizations, learning, backjumping,
restarts, clause-database reduction, assumptions, final analysis, saving and loading of states.

Simplifications
* Clauses and watchers are pointers in the code; here a clause is an id and `cls` gives its present content.  All clauses in the store have at least two literals, so
  the first two are fields of their own.
* The slices `trail` and `trailLim` are lists with the newest element first.
* The order of the learnt clauses, activities, LBD values, queues, polarities and clause flags only steer the heuristics.  Their decisions (restart, reduce, which clauses,
  branching order and sign, whether binary minimization is applied) are arbitrary: they are read from a stream of `Choice`s.
* The level −1 of a fresh variable is 1 here; the solver reads levels of assigned variables only, `VarOccurrences` and `FormulasOnSolver` compare with 0.
* At-most clauses (`UseAtMostClauses`) have ids of their own list (`ams`, `am`); in the code they are in `clauses` too.  Both lists only grow at the end, so that cutting
  `clauses` at a saved length is cutting both (`Saved` has two lengths).  The blocker of their watchers is always `LitUndef` and not looked at.
* Proof logging is not modelled; index errors on `permDiff` neither.
* Loops that are not bounded syntactically take fuel; `none` means that the fuel is used up or that the code would panic.
-/
namespace Verif.Sat

/-- pointwise update -/
def upd {β : Type} (f : Nat → β) (k : Nat) (b : β) : Nat → β := fun x => if x = k then b else f x

/-- datastructures.go:11-20 `clause`; `learntOn` is `learntOnState` (`none`: −1, not learnt) -/
structure Cls where
  a : Nat
  b : Nat
  rest : List Nat
  learntOn : Option Nat

def Cls.lits (k : Cls) : List Nat := k.a :: k.b :: k.rest

/-- datastructures.go:11-38 `clause` with `isAtMost`: the watched literals (the first `atMostWatchers`) and the others -/
structure Am where
  w : List Nat
  u : List Nat

def Am.lits (k : Am) : List Nat := k.w ++ k.u

/-- datastructures.go:66-68 `cardinality`: size − watchers + 1 -/
def Am.card (k : Am) : Nat := k.u.length + 1

/-- core.go:31-91 `CoreSolver` -/
structure S where
  nVars : Nat
  ok : Bool
  qhead : Nat
  units : List Nat
  clauses : List Nat
  learnts : List Nat
  cls : Nat → Cls
  ams : List Nat
  am : Nat → Option Am
  nextId : Nat
  watches : Nat → List (Nat × Nat)
  watchesBin : Nat → List (Nat × Nat)
  val : Nat → Option Bool
  level : Nat → Nat
  reason : Nat → Option Nat
  trail : List Nat
  trailLim : List Nat
  heap : List Nat
  seen : Nat → Bool
  conflict : List Nat
  model : List Bool
  stateId : Nat
  valid : List Nat

/-- core.go:149-204 `initialize` -/
def S.init : S where
  nVars := 0
  ok := true
  qhead := 0
  units := []
  clauses := []
  learnts := []
  cls := fun _ => ⟨0, 0, [], none⟩
  ams := []
  am := fun _ => none
  nextId := 0
  watches := fun _ => []
  watchesBin := fun _ => []
  val := fun _ => none
  level := fun _ => 0
  reason := fun _ => none
  trail := []
  trailLim := []
  heap := []
  seen := fun _ => false
  conflict := []
  model := []
  stateId := 0
  valid := []

/-- core.go:649-651 `decisionLevel` -/
def S.dl (s : S) : Nat := s.trailLim.length

/-- the clauses in the watcher lists -/
def S.att (s : S) : List Nat := s.clauses ++ s.learnts

/-- core.go:225-230 `value` -/
def S.value (s : S) (l : Nat) : Option Bool := if l % 2 = 1 then (s.val (l / 2)).map not else s.val (l / 2)

/-- core.go:657-661 `insertVarOrder` (all variables are decision variables, solver.go:176) -/
def insHeap (h : List Nat) (v : Nat) : List Nat := if v ∈ h then h else v :: h

/-- core.go:242-253 `NewVar` -/
def newVar (s : S) : S :=
  { s with
    nVars := s.nVars + 1
    val := upd s.val s.nVars none
    level := upd s.level s.nVars 1
    reason := upd s.reason s.nVars none
    watches := upd (upd s.watches (2 * s.nVars) []) (2 * s.nVars + 1) []
    watchesBin := upd (upd s.watchesBin (2 * s.nVars) []) (2 * s.nVars + 1) []
    heap := insHeap s.heap s.nVars }

/-- core.go:108-114 `UncheckedEnqueue` -/
def enqueue (s : S) (l : Nat) (r : Option Nat) : S :=
  { s with
    val := upd s.val (l / 2) (some (l % 2 == 0))
    reason := upd s.reason (l / 2) r
    level := upd s.level (l / 2) s.dl
    trail := l :: s.trail }

/-- core.go:724-745 `attachClause` of a new clause, with the allocation (datastructures.go:22-29) -/
def attach (s : S) (k : Cls) : S :=
  let i := s.nextId
  let put := fun w : Nat → List (Nat × Nat) =>
    let w := upd w (neg k.a) (w (neg k.a) ++ [(i, k.b)])
    upd w (neg k.b) (w (neg k.b) ++ [(i, k.a)])
  let s := { s with nextId := i + 1, cls := upd s.cls i k }
  if k.rest.isEmpty then { s with watchesBin := put s.watchesBin } else { s with watches := put s.watches }

/-- core.go:626-638, 763-769 `simpleRemoveClause`, `removeWatcher`.  A list holds a clause at most once (`Db.wNodup`), so that the removal while ranging over
the list removes just that entry. -/
def detach (s : S) (i : Nat) : S :=
  let k := s.cls i
  let del := fun w : Nat → List (Nat × Nat) =>
    let w := upd w (neg k.a) ((w (neg k.a)).filter fun e => e.1 != i)
    upd w (neg k.b) ((w (neg k.b)).filter fun e => e.1 != i)
  if k.rest.isEmpty then { s with watchesBin := del s.watchesBin } else { s with watches := del s.watches }

/-- core.go:725-730: `attachClause` of a new at-most clause -/
def attachAm (s : S) (k : Am) : S :=
  { s with
    nextId := s.nextId + 1
    am := upd s.am s.nextId (some k)
    watches := k.w.foldl (fun w l => upd w l (w l ++ [(s.nextId, 0)])) s.watches }

/-- core.go:627-630: `simpleRemoveClause` of an at-most clause; no literal occurs twice in the clause, so that each list holds it once at most (`Db.wNodup`) -/
def detachAm (s : S) (i : Nat) : S :=
  match s.am i with
  | none => s
  | some k => { s with watches := k.w.foldl (fun w l => upd w l ((w l).filter fun e => e.1 != i)) s.watches }

/-! ## propagation -/

/-- core.go:803-811: the binary watchers of the literal -/
def visitBin (s : S) : List (Nat × Nat) → S × Option Nat
  | [] => (s, none)
  | (c, imp) :: ws =>
    match s.value imp with
    | some false => (s, some c)
    | some true => visitBin s ws
    | none => visitBin (enqueue s imp (some c)) ws

/-- core.go:866-873: the first literal of the rest that is not false, with what stands before and behind it -/
def findWatch (s : S) : List Nat → List Nat → Option (List Nat × Nat × List Nat)
  | _, [] => none
  | pre, q :: r => if s.value q = some false then findWatch s (pre ++ [q]) r else some (pre, q, r)

/-- core.go:917-925: the first literal that is not true, with what stands before and behind it -/
def findNotTrue (s : S) : List Nat → List Nat → Option (List Nat × Nat × List Nat)
  | _, [] => none
  | pre, q :: r => if s.value q = some true then findNotTrue s (pre ++ [q]) r else some (pre, q, r)

/-- results of `findNewWatchForAtMostClause`: `p` (nothing to do), `LitUndef` (the other watched literals are false), `LitError` (conflict), a new watched literal -/
inductive AmRes
  | keep
  | units
  | confl
  | move (k : Am) (q : Nat)

/-- core.go:898-931 `findNewWatchForAtMostClause`; the lists are the watched literals seen and to come, the numbers `numFalse` and `numTrue` -/
def amScan (s : S) (k : Am) (p : Nat) : List Nat → List Nat → Nat → Nat → AmRes
  | _, [], _, nt => if nt > 1 then .confl else .units
  | pre, x :: xs, nf, nt =>
    match s.value x with
    | none => amScan s k p (pre ++ [x]) xs nf nt
    | some false => if nf + 1 ≥ k.w.length - 1 then .keep else amScan s k p (pre ++ [x]) xs (nf + 1) nt
    | some true =>
      if nt + 1 > k.card then .confl
      else if x = p then
        match findNotTrue s [] k.u with
        | some (r1, q, r2) => .move ⟨pre ++ q :: xs, r1 ++ x :: r2⟩ q
        | none => amScan s k p (pre ++ [x]) xs nf (nt + 1)
      else amScan s k p (pre ++ [x]) xs nf (nt + 1)

/-- core.go:826-830: the other watched literals are made false -/
def amUnits (c p : Nat) : S → List Nat → S
  | s, [] => s
  | s, x :: xs => amUnits c p (if x ≠ p ∧ s.value x ≠ some false then enqueue s (neg x) (some c) else s) xs

/-- core.go:812-890: the long watchers of `p`.  `kept` is the compacted part of the list, `todo` the part not visited. -/
def visit (p : Nat) (s : S) (kept : List (Nat × Nat)) : List (Nat × Nat) → S × Option Nat
  | [] => ({ s with watches := upd s.watches p kept }, none)
  | (c, bl) :: todo =>
    match s.am c with
    | some k =>
      -- 823-850
      match amScan s k p [] k.w 0 0 with
      | .keep => visit p s (kept ++ [(c, bl)]) todo
      | .units => visit p (amUnits c p s k.w) (kept ++ [(c, bl)]) todo
      | .confl => ({ s with watches := upd s.watches p (kept ++ (c, bl) :: todo), qhead := s.trail.length }, some c)
      | .move k' q =>
        let w := upd s.watches p (kept ++ todo)
        visit p { s with am := upd s.am c (some k'), watches := upd w q (w q ++ [(c, 0)]) } kept todo
    | none =>
    if s.value bl = some true then visit p s (kept ++ [(c, bl)]) todo
    else
      let k := s.cls c
      let falseLit := neg p
      -- 853-856
      let k := if k.a = falseLit then { k with a := k.b, b := falseLit } else k
      let s := { s with cls := upd s.cls c k }
      let first := k.a
      if first ≠ bl ∧ s.value first = some true then
        visit p { s with watches := upd s.watches p (kept ++ [(c, first)] ++ todo) } (kept ++ [(c, first)]) todo
      else
        match findWatch s [] k.rest with
        | some (r1, q, r2) =>
          let w := upd s.watches p (kept ++ todo)
          let s := { s with
            cls := upd s.cls c { k with b := q, rest := r1 ++ falseLit :: r2 }
            watches := upd w (neg q) (w (neg q) ++ [(c, first)]) }
          visit p s kept todo
        | none =>
          let s := { s with watches := upd s.watches p (kept ++ [(c, first)] ++ todo) }
          if s.value first = some false then
            ({ s with qhead := s.trail.length }, some c)
          else visit p (enqueue s first (some c)) (kept ++ [(c, first)]) todo

/-- core.go:798: the literal at the head of the queue -/
def S.next (s : S) : Option Nat := s.trail.reverse[s.qhead]?

/-- core.go:795-896 `propagate`; the second component is the conflicting clause -/
def propagate : Nat → S → Option (S × Option Nat)
  | 0, _ => none
  | k + 1, s =>
    match s.next with
    | none => some (s, none)
    | some p =>
      let s := { s with qhead := s.qhead + 1 }
      match visitBin s (s.watchesBin p) with
      | (s, some c) => some (s, some c)
      | (s, none) =>
        match visit p s [] (s.watches p) with
        | (s, some c) => some (s, some c)
        | (s, none) => propagate k s

/-! ## clauses from outside -/

/-- core.go:287-297: `p` is the literal kept last.  `none`: the clause is satisfied. -/
def addLoop (s : S) : List Nat → Option Nat → List Nat → Option (List Nat)
  | [], _, acc => some acc
  | q :: qs, p, acc =>
    if s.value q = some true ∨ p = some (neg q) then none
    else if s.value q ≠ some false ∧ p ≠ some q then addLoop s qs (some q) (acc ++ [q])
    else addLoop s qs p acc

/-- core.go:260-337 `AddClause`; also the returned value -/
def addClause (fuel : Nat) (s : S) (ps : List Nat) : Option (S × Bool) :=
  if s.ok = false then some (s, false)
  else match addLoop s (ps.insertionSort (· ≤ ·)) none [] with
    | none => some (s, true)
    | some [] => some ({ s with ok := false }, false)
    | some [l] =>
      match propagate fuel (enqueue s l none) with
      | none => none
      | some (s, r) => some ({ s with ok := r.isNone, units := s.units ++ [l] }, r.isNone)
    | some (a :: b :: rest) =>
      some (attach { s with clauses := s.clauses ++ [s.nextId] } ⟨a, b, rest, none⟩, true)

/-- core.go:348-360: the loop of `addAtMost`; `p` is the literal kept last, `acc` the kept literals -/
def amLoop (s : S) : List Nat → Option Nat → List Nat → Int → List Nat × Int
  | [], _, acc, k => (acc, k)
  | q :: qs, p, acc, k =>
    if s.value q = some true then amLoop s qs p acc (k - 1)
    else if p = some (neg q) then amLoop s qs (some q) acc.dropLast (k - 1)
    else if s.value q ≠ some false then amLoop s qs (some q) (acc ++ [q]) k
    else amLoop s qs p acc k

/-- core.go:372-375: the literals are made false -/
def amZero : S → List Nat → S
  | s, [] => s
  | s, q :: qs => amZero (let s := enqueue s (neg q) none; { s with units := s.units ++ [neg q] }) qs

/-- core.go:339-383 `addAtMost` -/
def addAtMost (fuel : Nat) (s : S) (ps : List Nat) (rhs : Int) : Option S :=
  if s.ok = false then some s
  else
    let r := amLoop s (ps.insertionSort (· ≤ ·)) none [] rhs
    let qs := r.1
    let k := r.2
    if k ≥ qs.length then some s
    else if k < 0 then some { s with ok := false }
    else if k = 0 then
      match propagate fuel (amZero s qs) with
      | none => none
      | some (s, r) => some { s with ok := r.isNone }
    else
      let n := qs.length - k.toNat + 1
      some (attachAm { s with ams := s.ams ++ [s.nextId] } ⟨qs.take n, qs.drop n⟩)

/-! ## conflict analysis -/

/-- working state of `analyze`: `seen`, the learnt clause without its first literal, `pathC` -/
structure An where
  seen : Nat → Bool
  out : List Nat
  pathC : Nat

/-- core.go:985-997: a literal of the clause at hand -/
def mark (s : S) (st : An) (q : Nat) : An :=
  if st.seen (q / 2) = false ∧ s.level (q / 2) ≠ 0 then
    if s.level (q / 2) ≥ s.dl then { st with seen := upd st.seen (q / 2) true, pathC := st.pathC + 1 }
    else { st with seen := upd st.seen (q / 2) true, out := st.out ++ [q] }
  else st

/-- core.go:941-945, 1152-1156: the true literals of an at-most clause, negated -/
def amTail (s : S) (k : Am) : List Nat := (k.lits.filter fun q => s.value q == some true).map neg

/-- core.go:957-961, 984: the literals of a reason but the first.  The first two literals of a binary clause are exchanged if the first is false; the order in
a binary clause is not looked at anywhere else, so the exchange is not stored. -/
def tailOf (s : S) (c : Nat) : List Nat :=
  match s.am c with
  | some k => amTail s k
  | none =>
  let k := s.cls c
  if k.rest = [] ∧ s.value k.a = some false then [k.a] else k.b :: k.rest

/-- core.go:940-955, 983-984: the literals of a conflicting clause -/
def conflLits (s : S) (c : Nat) : List Nat :=
  match s.am c with
  | some k => amTail s k
  | none => (s.cls c).lits

/-- core.go:939-1009: the loop, from the point where a clause has been worked off; runs down the trail.  `none`: the trail or the reasons end too early (panic). -/
def anLoop (s : S) : List Nat → An → Option (Nat × An)
  | [], _ => none
  | t :: rest, st =>
    if st.seen (t / 2) = false then anLoop s rest st
    else
      let st := { st with seen := upd st.seen (t / 2) false, pathC := st.pathC - 1 }
      if st.pathC > 0 then
        match s.reason (t / 2) with
        | none => none
        | some c => anLoop s rest ((tailOf s c).foldl (mark s) st)
      else some (t, st)

/-- core.go:653-655 `abstractLevel` -/
def absLevel (s : S) (v : Nat) : Nat := 1 <<< (s.level v % 32)

/-- core.go:1179-1196: the literals of a reason in `litRedundant`; `none`: left with `return false` -/
def redLits (s : S) (abs : Nat) : List Nat → List Nat × (Nat → Bool) × List Nat → (List Nat × (Nat → Bool) × List Nat) × Bool
  | [], st => (st, true)
  | q :: qs, (stack, seen, added) =>
    if seen (q / 2) = false ∧ 0 < s.level (q / 2) then
      if s.reason (q / 2) ≠ none ∧ absLevel s (q / 2) &&& abs ≠ 0 then
        redLits s abs qs (q :: stack, upd seen (q / 2) true, added ++ [q])
      else ((stack, seen, added), false)
    else redLits s abs qs (stack, seen, added)

/-- resets the marks of the literals -/
def unmark (seen : Nat → Bool) (ls : List Nat) : Nat → Bool := ls.foldl (fun f q => upd f (q / 2) false) seen

/-- core.go:1145-1200 `litRedundant`; `added` is the part of `analyzeToClear` added by this call.  Result, marks, `added`. -/
def litRed (s : S) (abs : Nat) : Nat → List Nat → (Nat → Bool) → List Nat → Option (Bool × (Nat → Bool) × List Nat)
  | 0, _, _, _ => none
  | _ + 1, [], seen, added => some (true, seen, added)
  | k + 1, x :: stack, seen, added =>
    match s.reason (x / 2) with
    | none => none
    | some c =>
      match redLits s abs (tailOf s c) (stack, seen, added) with
      | ((_, seen, added), false) => some (false, unmark seen added, [])
      | ((stack, seen, added), true) => litRed s abs k stack seen added

/-- core.go:1046-1052: result: kept literals, marks, additional entries of `analyzeToClear` -/
def deepLoop (s : S) (abs fuel : Nat) : List Nat → List Nat → (Nat → Bool) → List Nat → Option (List Nat × (Nat → Bool) × List Nat)
  | [], kept, seen, clear => some (kept, seen, clear)
  | q :: qs, kept, seen, clear =>
    if s.reason (q / 2) = none then deepLoop s abs fuel qs (kept ++ [q]) seen clear
    else match litRed s abs fuel [q] seen [] with
      | none => none
      | some (red, seen, added) => deepLoop s abs fuel qs (if red then kept else kept ++ [q]) seen (clear ++ added)

/-- core.go:1056-1074: the literal stays.  At-most clauses are not treated differently from other clauses. -/
def basicKeep (s : S) (seen : Nat → Bool) (q : Nat) : Bool :=
  match s.reason (q / 2) with
  | none => true
  | some c =>
    (match s.am c with
    | some k => if k.lits.length = 2 then k.lits else k.lits.tail
    | none =>
      let k := s.cls c
      if k.rest = [] then k.lits else k.b :: k.rest).any fun x => !seen (x / 2) && decide (0 < s.level (x / 2))

/-- config.go:10-14 `ClauseMinimization` -/
inductive Min | no | basic | deep

/-- a reordering of lists -/
structure Ord where
  f : List Nat → List Nat
  perm : ∀ l, (f l).Perm l

/-- decisions of the heuristics and of the handler in one round of the search -/
structure Choice where
  /-- answer of the handler to `SatConflictDetected` -/
  resume : Bool
  restart : Bool
  reduce : Bool
  /-- clauses that `reduceDB` wants to remove -/
  del : Nat → Bool
  /-- size and LBD allow minimization with binary clauses -/
  binMin : Bool
  binOrd : Ord
  /-- order in which the heap yields the variables -/
  pick : Ord
  /-- polarity of the chosen variable -/
  sign : Bool

/-- core.go:1089-1093: the first of the literals with the greatest level -/
def maxLev (lev : Nat → Nat) : Nat → List Nat → Nat
  | x, [] => x
  | x, y :: ys => maxLev lev (if lev (y / 2) > lev (x / 2) then y else x) ys

/-- core.go:1087-1097: exchange the second literal with one of the greatest level; the literals are different from each other -/
def bringMax (lev : Nat → Nat) : List Nat → List Nat
  | [] => []
  | x :: r =>
    let y := maxLev lev x r
    if y = x then x :: r else y :: r.map fun z => if z = y then x else z

/-- core.go:1113-1143 `minimisationWithBinaryResolution`, without the LBD test; the exchanges change the order of the remaining literals (`ord`) -/
def binMinimize (s : S) (ord : Ord) (l0 : Nat) (out : List Nat) : List Nat :=
  ord.f (out.filter fun q => !(s.watchesBin (neg l0)).any fun e => e.2 / 2 == q / 2 && s.value e.2 == some true)

/-- core.go:933-1012 and 1037-1111 `analyze`, `simplifyClause`: first literal, other literals, backjump level, marks -/
def analyze (cfg : Min) (fuel : Nat) (ch : Choice) (s : S) (c : Nat) : Option (Nat × List Nat × Nat × (Nat → Bool)) :=
  match anLoop s s.trail ((conflLits s c).foldl (mark s) ⟨s.seen, [], 0⟩) with
  | none => none
  | some (p, st) =>
    let l0 := neg p
    let toClear := l0 :: st.out
    let r := match cfg with
      | .deep => deepLoop s (st.out.foldl (fun a q => a ||| absLevel s (q / 2)) 0) fuel st.out [] st.seen []
      | .basic => some (st.out.filter (basicKeep s st.seen), st.seen, [])
      | .no => some (st.out, st.seen, [])
    match r with
    | none => none
    | some (out, seen, added) =>
      let out := if ch.binMin then binMinimize s ch.binOrd l0 out else out
      let out := bringMax s.level out
      let bt := match out with | [] => 0 | q :: _ => s.level (q / 2)
      some (l0, out, bt, unmark seen (toClear ++ added))

/-- core.go:1242-1269 `cancelUntil` -/
def cancelUntil (s : S) (lev : Nat) : S :=
  if lev < s.dl then
    match s.trailLim.drop (s.dl - 1 - lev) with
    | [] => s
    | lim :: older =>
      let dropped := s.trail.take (s.trail.length - lim)
      { s with
        val := fun v => if v ∈ dropped.map (· / 2) then none else s.val v
        heap := (dropped.map (· / 2)).foldl insHeap s.heap
        qhead := lim
        trail := s.trail.drop (s.trail.length - lim)
        trailLim := older }
  else s

/-- core.go:470-481: use of the learnt clause -/
def learn (s : S) (l0 : Nat) (out : List Nat) : S :=
  match out with
  | [] => let s := enqueue s l0 none; { s with units := s.units ++ [l0] }
  | b :: rest =>
    let i := s.nextId
    let s := attach { s with learnts := s.learnts ++ [i] } ⟨l0, b, rest, some s.stateId⟩
    enqueue s l0 (some i)

/-- core.go:706-708 `locked` -/
def locked (s : S) (i : Nat) : Bool := s.value (s.cls i).a == some true && s.reason ((s.cls i).a / 2) == some i

/-- core.go:1281-1293: the loop of `reduceDB` -/
def reduceLoop (del : Nat → Bool) (s : S) : List Nat → List Nat → S
  | [], kept => { s with learnts := kept }
  | i :: is, kept =>
    if del i ∧ (s.cls i).rest ≠ [] ∧ locked s i = false then
      reduceLoop del (detach { s with learnts := kept ++ is } i) is kept
    else reduceLoop del s is (kept ++ [i])

/-- core.go:1271-1298 `reduceDB` -/
def reduceDB (del : Nat → Bool) (s : S) : S := reduceLoop del s s.learnts []

/-- core.go:1214-1234: the literals of a reason in `analyzeFinal` -/
def finLits (s : S) (c : Nat) : List Nat :=
  match s.am c with
  | some k => amTail s k
  | none =>
    let k := s.cls c
    if k.rest = [] then k.lits else k.b :: k.rest

/-- core.go:1208-1237, the loop of `analyzeFinal` over the literals above the first decision -/
def finalLoop (s : S) : List Nat → (Nat → Bool) → List Nat → (Nat → Bool) × List Nat
  | [], seen, confl => (seen, confl)
  | t :: ts, seen, confl =>
    if seen (t / 2) then
      match s.reason (t / 2) with
      | none => finalLoop s ts (upd seen (t / 2) false) (confl ++ [neg t])
      | some c =>
        let seen := (finLits s c).foldl (fun f x => if 0 < s.level (x / 2) then upd f (x / 2) true else f) seen
        finalLoop s ts (upd seen (t / 2) false) confl
    else finalLoop s ts seen confl

/-- core.go:1202-1240 `analyzeFinal` -/
def analyzeFinal (s : S) (p : Nat) : S :=
  match s.trailLim.getLast? with
  | none => { s with conflict := [p] }
  | some lim0 =>
    let r := finalLoop s (s.trail.take (s.trail.length - lim0)) (upd s.seen (p / 2) true) [p]
    { s with conflict := r.2, seen := upd r.1 (p / 2) false }

/-! ## search -/

/-- end of the assumption loop -/
inductive Asm
  | free
  | next (p : Nat)
  | failed (p : Nat)

/-- core.go:497-518: the list holds the assumptions from the current level on -/
def asmLoop (s : S) : List Nat → S × Asm
  | [] => (s, .free)
  | p :: ps =>
    match s.value p with
    | some true => asmLoop { s with trailLim := s.trail.length :: s.trailLim } ps
    | some false => (s, .failed p)
    | none => (s, .next p)

/-- core.go:663-672 `pickBranchLit` -/
def pickBranch (ch : Choice) (s : S) : S × Option Nat :=
  match (ch.pick.f s.heap).dropWhile fun v => (s.val v).isSome with
  | [] => ({ s with heap := [] }, none)
  | v :: vs => ({ s with heap := vs }, some (if ch.sign then 2 * v + 1 else 2 * v))

/-- core.go:525-526: a new decision -/
def decideLit (s : S) (p : Nat) : S := enqueue { s with trailLim := s.trail.length :: s.trailLim } p none

/-- how a round of the search ends -/
inductive Out
  | cont (s : S)
  | sat (s : S)
  | unsat (s : S)

/-- core.go:437-527: a round of the search.  `TristateUndef` (restart, or a cancelled conflict) leads to a new call of `search` in `Solve` (396-398), which
goes on with the next round since `ok` does not change in between. -/
def iter (cfg : Min) (fuel : Nat) (ch : Choice) (asm : List Nat) (s : S) : Option Out :=
  match propagate fuel s with
  | none => none
  | some (s, some c) =>
    if ch.resume = false then some (.cont s)
    else if s.dl = 0 then some (.unsat s)
    else match analyze cfg fuel ch s c with
      | none => none
      | some (l0, out, bt, seen) => some (.cont (learn (cancelUntil { s with seen := seen } bt) l0 out))
  | some (s, none) =>
    if ch.restart then some (.cont (cancelUntil s 0))
    else
      let s := if ch.reduce then reduceDB ch.del s else s
      match asmLoop s (asm.drop s.dl) with
      | (s, .failed p) => some (.unsat (analyzeFinal s (neg p)))
      | (s, .next p) => some (.cont (decideLit s p))
      | (s, .free) =>
        match pickBranch ch s with
        | (s, none) => some (.sat s)
        | (s, some p) => some (.cont (decideLit s p))

/-- core.go:396-398 with 432-529; `O` gives the choices of the rounds to come -/
def searchLoop (cfg : Min) (fuel : Nat) (O : Nat → Choice) (asm : List Nat) : Nat → Nat → S → Option (Bool × S)
  | 0, _, _ => none
  | k + 1, n, s =>
    match iter cfg fuel (O n) asm s with
    | none => none
    | some (.cont s) => searchLoop cfg fuel O asm k (n + 1) s
    | some (.sat s) => some (true, s)
    | some (.unsat s) => some (false, s)

/-- core.go:386-419 `Solve`; `start` and `finish` are the answers of the handler to the first and last event.  The first component is the verdict, `none` if the call
reports cancellation. -/
def solve (cfg : Min) (fuel : Nat) (O : Nat → Choice) (start finish : Bool) (asm : List Nat) (s : S) : Option (Option Bool × S) :=
  if start = false then some (none, s)
  else
    let s := { s with model := [], conflict := [] }
    if s.ok = false then some (some false, s)
    else match searchLoop cfg fuel O asm fuel 0 s with
      | none => none
      | some (r, s) =>
        let s := if r then { s with model := (List.range s.nVars).map fun v => s.val v == some true }
          else if s.conflict.isEmpty then { s with ok := false } else s
        let s := cancelUntil s 0
        some (if finish then some r else none, s)

/-! ## states -/

/-- solver.go:25-28 `SolverState` -/
structure Saved where
  id : Nat
  ok : Bool
  nVars : Nat
  nClauses : Nat
  nUnits : Nat
  nAms : Nat

/-- core.go:531-552 `saveState` -/
def saveState (s : S) : S × Saved :=
  ({ s with stateId := s.stateId + 1, valid := s.valid ++ [s.stateId] }, ⟨s.stateId, s.ok, s.nVars, s.clauses.length, s.units.length, s.ams.length⟩)

/-- core.go:599-602: the unit clauses are enqueued again -/
def reUnits (fuel : Nat) : S → List Nat → Option S
  | s, [] => some s
  | s, l :: ls =>
    if s.ok = false then some s
    else match propagate fuel (enqueue s l none) with
      | none => none
      | some (s, r) => reUnits fuel { s with ok := r.isNone } ls

/-- core.go:612-624 `completeBacktrack` -/
def completeBacktrack (s : S) : S :=
  { s with
    val := fun v => if v < s.nVars then none else s.val v
    reason := fun v => if v < s.nVars then none else s.reason v
    heap := (List.range s.nVars).foldl insHeap s.heap
    trail := []
    trailLim := []
    qhead := 0 }

/-- core.go:578-582: the clauses from position `n` on are removed -/
def dropClauses (n : Nat) (s : S) : S := { (s.clauses.drop n).foldl detach s with clauses := s.clauses.take n }

/-- core.go:578-582 for at-most clauses -/
def dropAms (n : Nat) (s : S) : S := { (s.ams.drop n).foldl detachAm s with ams := s.ams.take n }

/-- core.go:587: the clause was learnt before or on the state `id` -/
def isOld (id : Nat) (k : Cls) : Bool := match k.learntOn with
  | none => true
  | some j => decide (j ≤ id)

/-- core.go:584-594: clauses learnt on later states are removed -/
def dropLearnts (id : Nat) (s : S) : S :=
  { (s.learnts.filter fun i => !isOld id (s.cls i)).foldl detach s with learnts := s.learnts.filter fun i => isOld id (s.cls i) }

/-- core.go:568-577: the variables from `n` on are removed (their watcher lists later, 596-597) -/
def dropVars (n : Nat) (s : S) : S := { s with nVars := n, heap := s.heap.filter (· < n) }

/-- core.go:596-598 -/
def dropRest (n m : Nat) (s : S) : S :=
  { s with
    watches := fun l => if l < 2 * n then s.watches l else []
    watchesBin := fun l => if l < 2 * n then s.watchesBin l else []
    units := s.units.take m }

/-- core.go:554-610 `loadState`; `some (s, false)` is the error.  Ids are given out once, so that the position of an id in `validStates` is unique. -/
def loadState (fuel : Nat) (s : S) (st : Saved) : Option (S × Bool) :=
  match s.valid.findIdx? (· == st.id) with
  | none => some (s, false)
  | some i =>
    let s := completeBacktrack { s with valid := s.valid.take (i + 1) }
    let n := min st.nVars s.nVars
    let s := dropRest n st.nUnits (dropLearnts st.id (dropAms st.nAms (dropClauses st.nClauses (dropVars n { s with ok := st.ok }))))
    match reUnits fuel s s.units with
    | none => none
    | some s => some (s, true)

end Verif.Sat
