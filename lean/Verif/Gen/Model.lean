import Verif.Transform.Model
/-!
# Model of the problem generators

`sat/pigeon_hole.go` and `sat/queen.go`.  A variable is the number behind the prefix `v` of its name; `name` gives the variable of the name.
-/
namespace Verif.Gen
open Verif Verif.Tree Verif.Transform
variable {α : Type} [DecidableEq α]

def pos (x : α) : Fm α := .lit ⟨x, true⟩
def neg (x : α) : Fm α := .lit ⟨x, false⟩

/-! ### pigeon holes -/

/-- the operands collected in pigeon_hole.go:21-28: the loop over the pigeons `i = 1 … n+1` and the holes `j = 1 … n` -/
def someHole (cons : Bool) (name : Nat → α) (n : Nat) : List (Fm α) :=
  (List.range' 1 (n + 1)).map fun i => tOr cons ((List.range' 1 n).map fun j => pos (name (n * (i - 1) + j)))

/-- pigeon_hole.go:17-30 `placeInSomeHole` -/
def placeInSomeHole (cons : Bool) (name : Nat → α) (n : Nat) : Fm α :=
  if n = 1 then tAnd cons [pos (name 1), pos (name 2)] else tAnd cons (someHole cons name n)

/-- the operands collected in pigeon_hole.go:36-43: the loops over the holes `j = 1 … n` and the pigeons `i = 1 … n`, `k = i+1 … n+1` -/
def onePigeon (cons : Bool) (name : Nat → α) (n : Nat) : List (Fm α) :=
  (List.range' 1 n).flatMap fun j => (List.range' 1 n).flatMap fun i => (List.range' (i + 1) (n + 1 - i)).map fun k =>
    tOr cons [neg (name (n * (i - 1) + j)), neg (name (n * (k - 1) + j))]

/-- pigeon_hole.go:32-45 `onlyOnePigeonInHole` -/
def onlyOnePigeonInHole (cons : Bool) (name : Nat → α) (n : Nat) : Fm α :=
  if n = 1 then tOr cons [neg (name 1), neg (name 2)] else tAnd cons (onePigeon cons name n)

/-- pigeon_hole.go:12-15 `GeneratePigeonHole` -/
def pigeonHole (cons : Bool) (name : Nat → α) (n : Nat) : Fm α :=
  tAnd cons [placeInSomeHole cons name n, onlyOnePigeonInHole cons name n]

/-! ### queens -/

/-- queen.go:15-22: the variable of row `i` and column `j`, both from 0; `kk` counts the cells row by row from 1 -/
def cell (name : Nat → α) (n i j : Nat) : α := name (n * i + j + 1)

/-- queen.go:28-30: `EncodeCC` of an at-most-one (`le`) or exactly-one (`eq`) constraint with the pure encoding, as a conjunction.  None of the lists of
variables is empty, so `fac.EXO` and `fac.AMO` give a constraint. -/
def encoded (cons : Bool) (c : Cmp) (xs : List α) : Fm α := (expandCC cons c 1 xs).getD .fls

/-- queen.go:12-77 `GenerateNQueens`: the constraints in the order of the loops -/
def queenConstraints (name : Nat → α) (n : Nat) : List (Cmp × List α) :=
  -- queen.go:26-31
  ((List.range n).map fun i => (Cmp.eq, (List.range n).map fun j => cell name n i j)) ++
  -- queen.go:32-40
  ((List.range n).map fun i => (Cmp.eq, (List.range n).map fun j => cell name n j i)) ++
  -- queen.go:41-49
  ((List.range (n - 1)).map fun i => (Cmp.le, (List.range (n - i)).map fun j => cell name n j (i + j))) ++
  -- queen.go:50-58
  ((List.range' 1 (n - 2)).map fun i => (Cmp.le, (List.range (n - i)).map fun j => cell name n (j + i) j)) ++
  -- queen.go:59-67
  ((List.range (n - 1)).map fun i => (Cmp.le, (List.range (n - i)).map fun j => cell name n j (n - 1 - (i + j)))) ++
  -- queen.go:68-76
  ((List.range' 1 (n - 2)).map fun i => (Cmp.le, (List.range (n - i)).map fun j => cell name n (j + i) (n - 1 - j)))

/-- queen.go:12-78 `GenerateNQueens` -/
def nQueens (cons : Bool) (name : Nat → α) (n : Nat) : Fm α :=
  tAnd cons ((queenConstraints name n).map fun c => encoded cons c.1 c.2)

end Verif.Gen
