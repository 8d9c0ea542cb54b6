import Verif.Enum.Termination
import Verif.Bdd.Order
/-!
Model of /repo/sat/var_occs.go, /repo/model/iter/split.go and /repo/model/iter/strategy.go.

A variable and its name are the same. Maps are lists of pairs; `ord` stands for the order in which Go ranges over a map. A set of variables is
its `Content()`, which is sorted (/repo/formula/set.go:180-188). The take rate is a rational (NaN, which the constructors accept, is left out),
its product with the size is rounded as IEEE 754 says (`Order.round53`). `none` is a panic.
-/
namespace Verif.Enum
open Verif
variable {α : Type} [LinearOrder α]

/-- what `VarOccurrences` reads of the core solver: `idx2name`, `vars[i].level == 0`, the literals of `clauses` (including at-most clauses) -/
structure Core (α : Type) where
  names : List α
  level0 : List Bool
  clauses : List (List Nat)

/-- assignment to a key of a Go map -/
def put (m : List (α × Nat)) (k : α) (v : Nat) : List (α × Nat) :=
  if m.any (·.1 == k) then m.map fun e => if e.1 = k then (k, v) else e else m ++ [(k, v)]

/-- var_occs.go:36-57 `initResultMap`; `rel = none` is nil -/
def initMap (c : Core α) (rel : Option (List α)) : List (α × Nat) :=
  let m := match rel with
    | none => []
    | some vs => vs.foldl (fun m x => put m x 0) []
  (c.names.zip c.level0).foldl (fun m nl =>
    if (match rel with | none => true | some vs => vs.contains nl.1) then put m nl.1 (if nl.2 then 1 else 0) else m) m

/-- var_occs.go:20-27: one literal -/
def countLit (c : Core α) (m : List (α × Nat)) (l : Nat) : List (α × Nat) :=
  match c.names[l / 2]? with
  | none => m
  | some x => match m.lookup x with
    | none => m
    | some n => put m x (n + 1)

/-- var_occs.go:12-34 `VarOccurrences` -/
def varOccs (c : Core α) (rel : Option (List α)) : List (α × Nat) :=
  c.clauses.foldl (fun m cl => cl.foldl (countLit c) m) (initMap c rel)

/-- split.go:108-122: the comparison of the two sorts -/
def before (occs : List (α × Nat)) (most : Bool) (x y : α) : Bool :=
  let ox := (occs.lookup x).getD 0
  let oy := (occs.lookup y).getD 0
  if most then (if ox ≠ oy then oy < ox else y < x) else (if ox ≠ oy then ox < oy else x < y)

/-- split.go:132-134 `numbOfVarsToChoose` -/
def limit (size : Nat) (rate : Rat) (maxVars : Int) : Int := min maxVars (Order.round53 ((size : Rat) * rate)).ceil

/-- split.go:123-128: the size that the rate is applied to -/
def baseSize (rel : Option (List α)) (vars : List α) : Nat :=
  match rel with
  | some vs => vs.length
  | none => vars.length

/-- split.go:100-130 `chooseByOccs`. `sort.SliceStable` is a stable sort; slicing panics beyond the capacity, which is the number of keys. -/
def chooseByOccs (ord : List α → List α) (c : Core α) (rel : Option (List α)) (most : Bool) (rate : Rat) (maxVars : Int) : Option (List α) :=
  let occs := varOccs c rel
  let vars := (ord (occs.map (·.1))).mergeSort fun x y => !before occs most y x
  let l := limit (baseSize rel vars) rate maxVars
  if 0 ≤ l ∧ l ≤ vars.length then some ((vars.take l.toNat).mergeSort fun x y => decide (x ≤ y)) else none

/-- split.go:48-53, 80-85: the check of the constructors -/
def rateOk (rate : Rat) : Bool := !(rate < 0 || 1 < rate)

/-- strategy.go:84-128 `BasicStrategy` with a provider -/
def basicStrategy (call : Nat → List (Fm α) → Option (Option (α → Bool))) (go : Nat → Bool) (m : Int) (prov : List α → St α → List α) : Cfg α where
  call := call
  go := go
  maxIter := fun _ => (max m 3).toNat
  maxSplit := fun _ => (max m 3).toNat
  reduce := fun vs _ => vs.take (vs.length / 2)
  split := fun vs s d => if d = 0 then prov vs s else vs.take (vs.length / 2)

/-- split.go:24-34: `FixedVarProvider` -/
def fixedProv (xs : List α) : List α → St α → List α := fun _ _ => xs

/-- split.go:64-66, 96-98: `Vars` of the other two providers; `core` is the core solver of a state. `C60_choose` shows that there is no panic. -/
def occProv (ord : List α → List α) (core : St α → Core α) (most : Bool) (rate : Rat) (maxVars : Int) : List α → St α → List α :=
  fun vs s => (chooseByOccs ord (core s) (some vs) most rate maxVars).getD []

/-- strategy.go:105-107, split.go:90-92: `DefaultStrategy` -/
def defaultStrategy (call : Nat → List (Fm α) → Option (Option (α → Bool))) (go : Nat → Bool) (ord : List α → List α) (core : St α → Core α) : Cfg α :=
  basicStrategy call go 500 (occProv ord core true (1 / 2) 18)

/-- strategy.go:48-72 `NoSplitStrategy`, the default of `New` (iteration.go:35-38); `math.MaxInt` for 64 bits -/
def noSplitStrategy (call : Nat → List (Fm α) → Option (Option (α → Bool))) (go : Nat → Bool) : Cfg α where
  call := call
  go := go
  maxIter := fun _ => 2 ^ 63 - 1
  maxSplit := fun _ => 2 ^ 63 - 1
  reduce := fun _ _ => []
  split := fun _ _ _ => []

end Verif.Enum
