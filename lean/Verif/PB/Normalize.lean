import Verif.Factory.Tree
import Mathlib.Data.Int.GCD
import Mathlib.Data.List.Dedup
/-!
# Model of the normalization of pseudo-Boolean constraints (encoding/normalize.go)

Integers are unbounded (the code uses 64-bit integers without overflow checks).  The order in which the code sorts the literals, by their handle, is a
parameter `ord`: any function returning a permutation.
-/
namespace Verif.PB
open Verif Verif.Tree
variable {α : Type} [DecidableEq α]

abbrev Terms (α : Type) := List (Int × Lit α)

/-- normalize.go:88-98: the loop removing zero coefficients.  It moves the remaining literals to the front of the slice `ps` *in place*; the
result is the list of remaining terms and the contents of the slice afterwards, seen with its old length. -/
def compact (ps : List (Lit α)) (cs : List Int) : Terms α × List (Lit α) :=
  let kept := (cs.zip ps).filter (fun t => t.1 ≠ 0)
  (kept, kept.map (·.2) ++ ps.drop kept.length)

/-- sum of the coefficients of one literal, normalize.go:99-111 -/
def coef (ts : Terms α) (l : Lit α) : Int := ((ts.filter (fun t => t.2 = l)).map (·.1)).sum

/-- the keys of `var2consts` -/
def keys (ts : Terms α) : List α := (ts.map (·.2.var)).dedup

/-- normalize.go:112-123: one entry of `var2consts`: what is subtracted from the right-hand side, and the new term -/
def entry (ts : Terms α) (x : α) : Int × (Int × Lit α) :=
  let v0 := coef ts ⟨x, false⟩
  let v1 := coef ts ⟨x, true⟩
  if v0 < v1 then (v0, (v1 - v0, ⟨x, true⟩)) else (v1, (v0 - v1, ⟨x, false⟩))

/-- normalize.go:141-144 -/
def gcdAll (c : Int) (cs : List Int) : Nat := cs.foldl (fun d x => Nat.gcd d x.toNat) c.toNat

/-- normalize.go:129-156: the loop dividing by the greatest common divisor; `none` if the fuel is used up -/
def divLoop (sum : Int) : Nat → Int → Terms α → Option (Fm α)
  | 0, _, _ => none
  | fuel + 1, c, ts =>
    if c < 0 then some .fls
    else if sum ≤ c then some .tru
    else
      let div : Int := gcdAll c (ts.map (·.1))
      if div ≠ 0 ∧ div ≠ 1 then divLoop sum fuel (c / div) (ts.map fun t => (t.1 / div, t.2))
      else some (tPBC .le c ts)

/-- normalize.go:85-157 `normalizeLE` without the compaction -/
def normKept (ord : Terms α → Terms α) (fuel : Nat) (ts : Terms α) (rhs : Int) : Option (Fm α) :=
  let es := (keys ts).map (entry ts)
  let c := rhs - (es.map (·.1)).sum
  let ts' := (ord (es.map (·.2))).filter (fun t => t.1 ≠ 0)
  divLoop (ts'.map (·.1)).sum fuel c ts'

/-- normalize.go:85-157 `normalizeLE`: the formula, and the slice of literals afterwards -/
def normalizeLE (ord : Terms α → Terms α) (fuel : Nat) (ps : List (Lit α)) (cs : List Int) (rhs : Int) : Option (Fm α) × List (Lit α) :=
  let k := compact ps cs
  (normKept ord fuel k.1 rhs, k.2)

/-- normalize.go:13-55 `Normalize`, for a constraint with these terms -/
def normalize (cons : Bool) (ord : Terms α → Terms α) (fuel : Nat) (c : Cmp) (rhs : Int) (ts : Terms α) : Option (Fm α) :=
  let ps := ts.map (·.2)
  let cs := ts.map (·.1)
  match c with
  | .eq =>
    let r1 := normalizeLE ord fuel ps cs rhs
    let r2 := normalizeLE ord fuel r1.2 (cs.map (- ·)) (-rhs)
    match r1.1, r2.1 with
    | some f1, some f2 => some (tAnd cons [f1, f2])
    | _, _ => none
  | .le => (normalizeLE ord fuel ps cs rhs).1
  | .lt => (normalizeLE ord fuel ps cs (rhs - 1)).1
  | .ge => (normalizeLE ord fuel ps (cs.map (- ·)) (-rhs)).1
  | .gt => (normalizeLE ord fuel ps (cs.map (- ·)) (-rhs - 1)).1

/-- normalize.go:57-83 `NegatePBC` -/
def negatePBC (cons : Bool) (c : Cmp) (rhs : Int) (ts : Terms α) : Fm α :=
  match c with
  | .eq => tOr cons [tPBC .lt rhs ts, tPBC .gt rhs ts]
  | .le => tPBC .gt rhs ts
  | .lt => tPBC .ge rhs ts
  | .ge => tPBC .lt rhs ts
  | .gt => tPBC .le rhs ts

end Verif.PB
