import Verif.Factory.Tree
import Mathlib.Data.List.Dedup
/-!
# The formula randomizer (C64)

Model of /repo/randomizer/formula_randomizer.go.  The source of random numbers is an arbitrary stream, the order in which Go iterates over a map an arbitrary
permutation.  The constructors of the factory are those on trees (`Verif.Factory.Refine`).  Weights are natural numbers and are compared exactly: the rounding of
`float64` is not modelled (weights that are fractions have a common denominator).
-/
namespace Verif.Randomizer
open Verif Verif.Tree

/-- the configuration, formula_randomizer.go:14-44; `vars` is the result of `generateVars` (370-381) -/
structure Cfg (α : Type) where
  vars : List α
  wConst : Nat
  wPos : Nat
  wNeg : Nat
  wOr : Nat
  wAnd : Nat
  wNot : Nat
  wImpl : Nat
  wEquiv : Nat
  maxAnd : Nat
  maxOr : Nat
  wPbc : Nat
  wCoeffPos : Nat
  wCoeffNeg : Nat
  wLe : Nat
  wLt : Nat
  wGe : Nat
  wGt : Nat
  wEq : Nat
  maxPbc : Nat
  maxCoeff : Nat
  wCc : Nat
  wAmo : Nat
  wExo : Nat
  maxCc : Nat

/-- a run: a result with the position in the stream, a panic, or not finished -/
inductive Out (β : Type) where
  | ok (x : β) (p : Nat)
  | panic
  | fuel
deriving DecidableEq

/-- a computation that reads the stream from a position on -/
abbrev R (β : Type) := Nat → Out β

variable {α β γ : Type}

def ret (x : β) : R β := fun p => .ok x p
def bind (m : R β) (f : β → R γ) : R γ := fun p => match m p with
  | .ok x q => f x q
  | .panic => .panic
  | .fuel => .fuel
/-- a loop that collects `n` results -/
def times : Nat → R β → R (List β)
  | 0, _ => ret []
  | n + 1, m => bind m fun x => bind (times n m) fun xs => ret (x :: xs)

/-- the stream and the order of maps -/
structure Env (α : Type) where
  draw : Nat → Nat
  order : Nat → List α → List α

variable [DecidableEq α] (e : Env α) (g : Cfg α) (cons : Bool)

/-- `Intn` of math/rand: panics for bounds that are not positive -/
def intn (n : Nat) : R Nat := fun p => if n = 0 then .panic else .ok (e.draw p % n) (p + 1)
/-- `Float64` of math/rand: a fraction with denominator 2^53 below 1; here its numerator -/
def flt : R Nat := fun p => .ok (e.draw p % 2 ^ 53) (p + 1)

/-- the cases `n < p` with the sums of weights of formula_randomizer.go:415-431, 441-450: the index of the case, the number of cases for the default. `total` is the
divisor of the weights (a division 0/0 gives NaN, with which no comparison holds). -/
def pick (a total : Nat) : Nat → List Nat → Nat
  | _, [] => 0
  | acc, w :: ws => if a * total < 2 ^ 53 * (acc + w) then 0 else pick a total (acc + w) ws + 1

/-- formula_randomizer.go:145-147 -/
def constant : R (Fm α) := bind (intn e 2) fun n => ret (tConst (decide (n > 0)))

/-- formula_randomizer.go:150-152 -/
def variable' : R α := bind (intn e g.vars.length) fun i => match g.vars[i]? with
  | some x => ret x
  | none => fun _ => .panic

/-- formula_randomizer.go:156-160 -/
def literal : R (Lit α) := bind (variable' e g) fun x => bind (flt e) fun a => ret ⟨x, decide (a * (g.wPos + g.wNeg) < 2 ^ 53 * g.wPos)⟩

/-- formula_randomizer.go:357-368; a map is a duplicate free list, iterated in the order of `e.order` -/
def ccVariables : R (List α) := bind (intn e (g.maxCc - 1)) fun n => bind (times (n + 2) (variable' e g)) fun xs => fun p => .ok (e.order p xs.dedup) p

/-- formula_randomizer.go:383-399 -/
def cSort : R Cmp := bind (flt e) fun a => ret (match pick a (g.wLe + g.wLt + g.wGe + g.wGt + g.wEq) 0 [g.wLe, g.wLt, g.wGe, g.wGt] with
  | 0 => .le
  | 1 => .lt
  | 2 => .ge
  | 3 => .gt
  | _ => .eq)

/-- `Sort() <= SortTrue` -/
def isConst : Fm α → Bool
  | .fls => true
  | .tru => true
  | _ => false

/-- formula_randomizer.go:254-260 -/
def ccBound (n : Nat) : Cmp → Nat
  | .gt => n + 1
  | .lt => n + 1
  | _ => n

/-- formula_randomizer.go:261-267 -/
def ccOffset : Cmp → Int
  | .gt => -1
  | .lt => 1
  | _ => 0

/-- formula_randomizer.go:251-277 -/
def cc : Nat → R (Fm α)
  | 0 => fun _ => .fuel
  | F + 1 => bind (ccVariables e g) fun xs => bind (cSort e g) fun s =>
    if ccBound xs.length s = 0 then cc F
    else bind (intn e (ccBound xs.length s)) fun n =>
      let f := tCC s (max 0 (ccOffset s + n)) xs
      if isConst f then cc F else ret f

/-- formula_randomizer.go:280-282 -/
def amo : R (Fm α) := bind (ccVariables e g) fun xs => ret (tCC .le 1 xs)
/-- formula_randomizer.go:285-287 -/
def exo : R (Fm α) := bind (ccVariables e g) fun xs => ret (tCC .eq 1 xs)

/-- formula_randomizer.go:296-305: a literal with its coefficient -/
def term : R (Int × Lit α) := bind (literal e g) fun l => bind (intn e g.maxCoeff) fun c => bind (flt e) fun a =>
  ret (if a * (g.wCoeffPos + g.wCoeffNeg) < 2 ^ 53 * g.wCoeffNeg then -((c : Int) + 1) else (c : Int) + 1, l)

/-- formula_randomizer.go:290-313 -/
def pbc : Nat → R (Fm α)
  | 0 => fun _ => .fuel
  | F + 1 => bind (intn e g.maxPbc) fun n => bind (times n (term e g)) fun ts => bind (cSort e g) fun s =>
    let minSum := (ts.map fun t => (-t.1).toNat).sum
    let maxSum := (ts.map fun t => t.1.toNat).sum
    bind (intn e (maxSum + minSum + 1)) fun k =>
      let f := tPBC s ((k : Int) - minSum) ts
      if isConst f then pbc F else ret f

/-- formula_randomizer.go:164-180 `Atom` -/
def atom (F : Nat) : R (Fm α) := bind (flt e) fun a =>
  match pick a (g.wConst + (g.wPos + g.wNeg) + g.wPbc + g.wCc + g.wAmo + g.wExo) 0 [g.wConst, g.wPos + g.wNeg, g.wPbc, g.wCc, g.wAmo] with
  | 0 => constant e
  | 1 => bind (literal e g) fun l => ret (.lit l)
  | 2 => pbc e g F
  | 3 => cc e g F
  | 4 => amo e g
  | _ => exo e g

/-- the generating functions -/
inductive Kind where
  | formula | or | and | not | impl | equiv
deriving DecidableEq

/-- `Sort()` is the sort of the generated kind -/
def hasSort : Kind → Fm α → Bool
  | .or, .or _ => true
  | .and, .and _ => true
  | .not, .not _ => true
  | .impl, .impl _ _ => true
  | .equiv, .equiv _ _ => true
  | _, _ => false

/-- formula_randomizer.go:183-248, 316-345 `Not`, `Impl`, `Equiv`, `And`, `Or`, `Formula` with `maxDepth` as last argument -/
def gen : Nat → Kind → Nat → R (Fm α)
  | 0, _, _ => fun _ => .fuel
  | F + 1, _, 0 => atom e g F
  | F + 1, .not, d + 1 => bind (gen F .formula d) fun f =>
      if d + 1 ≥ 2 ∧ hasSort .not (tNot f) = false then gen F .not (d + 1) else ret (tNot f)
  | F + 1, .impl, d + 1 => bind (gen F .formula d) fun l => bind (gen F .formula d) fun r =>
      if hasSort .impl (tImpl cons l r) = false then gen F .impl (d + 1) else ret (tImpl cons l r)
  | F + 1, .equiv, d + 1 => bind (gen F .formula d) fun l => bind (gen F .formula d) fun r =>
      if hasSort .equiv (tEquiv cons l r) = false then gen F .equiv (d + 1) else ret (tEquiv cons l r)
  | F + 1, .and, d + 1 => bind (intn e (g.maxAnd - 2)) fun n => bind (times (2 + n) (gen F .formula d)) fun fs =>
      if hasSort .and (tAnd cons fs) = false then gen F .and (d + 1) else ret (tAnd cons fs)
  | F + 1, .or, d + 1 => bind (intn e (g.maxOr - 2)) fun n => bind (times (2 + n) (gen F .formula d)) fun fs =>
      if hasSort .or (tOr cons fs) = false then gen F .or (d + 1) else ret (tOr cons fs)
  | F + 1, .formula, d + 1 => bind (flt e) fun a =>
      match pick a (g.wConst + (g.wPos + g.wNeg) + g.wPbc + g.wCc + g.wAmo + g.wExo + g.wOr + g.wAnd + g.wNot + g.wImpl + g.wEquiv) 0
        [g.wConst, g.wPos + g.wNeg, g.wPbc, g.wCc, g.wAmo, g.wExo, g.wOr, g.wAnd, g.wNot, g.wImpl] with
      | 0 => constant e
      | 1 => bind (literal e g) fun l => ret (.lit l)
      | 2 => pbc e g F
      | 3 => cc e g F
      | 4 => amo e g
      | 5 => exo e g
      | 6 => gen F .or (d + 1)
      | 7 => gen F .and (d + 1)
      | 8 => gen F .not (d + 1)
      | 9 => gen F .impl (d + 1)
      | _ => gen F .equiv (d + 1)

/-- formula_randomizer.go:349-355 -/
def constraintSet (F n d : Nat) : R (List (Fm α)) := times n (gen e g cons F .formula d)

end Verif.Randomizer
