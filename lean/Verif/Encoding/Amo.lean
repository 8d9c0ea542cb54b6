import Verif.Encoding.Base
import Mathlib.Data.Nat.Log
import Mathlib.Data.Nat.Sqrt
/-!
# Model of the at-most-one encodings, encoding/amo.go

The recursive encodings take a fuel argument; `none` means that the recursion did not come to an end within that fuel (the code has no such
bound).  Floating point expressions are modelled by the integer functions they compute (exact below 2^50).
-/
namespace Verif.Enc
open Verif
variable {α : Type}

/-- amo.go:10-17 `amoPure`, 78-85 `buildPure`, 87-94 `buildPureLit` -/
def pure : List (Lit (EV α)) → List (Clause α)
  | [] => []
  | l :: ls => ls.map (fun m => [l.neg, m.neg]) ++ pure ls

/-- amo.go:19-37 `amoLadder`: the clauses of the loop from index `i` on; `k` is the number of the first auxiliary variable -/
def ladderFrom (k : Nat) : Nat → List (Lit (EV α)) → List (Clause α)
  | _, [] => []
  | 0, x :: xs => [x.neg, al k] :: ladderFrom k 1 xs
  | i + 1, [x] => [[x.neg, (al (k + i)).neg]]
  | i + 1, x :: xs => [[x.neg, al (k + (i + 1))], [(al (k + i)).neg, al (k + (i + 1))], [x.neg, (al (k + i)).neg]] ++ ladderFrom k (i + 2) xs
/-- amo.go:19-37; called for at least two variables -/
def ladder (k : Nat) (vars : List (Lit (EV α))) : List (Clause α) × Nat := (ladderFrom k 0 vars, k + (vars.length - 1))

/-- ⌈√n⌉ -/
def ceilSqrt (n : Nat) : Nat := if Nat.sqrt n * Nat.sqrt n = n then Nat.sqrt n else Nat.sqrt n + 1
/-- ⌈n/m⌉ -/
def ceilDiv (n m : Nat) : Nat := (n + m - 1) / m

/-- amo.go:70-73, the two clauses for one variable, if the index is in range -/
def gridCell : Option (Lit (EV α)) → Option (Lit (EV α)) → Option (Lit (EV α)) → List (Clause α)
  | some x, some u, some v => [[x.neg, u], [x.neg, v]]
  | _, _, _ => []
/-- amo.go:67-75 -/
def productGrid (p q : Nat) (us vs vars : List (Lit (EV α))) : List (Clause α) :=
  (List.range p).flatMap fun i => (List.range q).flatMap fun j => gridCell vars[i * q + j]? us[i]? vs[j]?

/-- amo.go:39-76 `amoProduct` (with the default bound already replaced) -/
def product (bound : Int) : Nat → Nat → List (Lit (EV α)) → Option (List (Clause α) × Nat)
  | 0, _, _ => none
  | fuel + 1, k, vars =>
    let n := vars.length
    let p := ceilSqrt n
    let q := ceilDiv n p
    let us := auxs k p
    let vs := auxs (k + p) q
    match (if (p : Int) ≤ bound then some (pure us, k + p + q) else product bound fuel (k + p + q) us) with
    | none => none
    | some r1 =>
      match (if (q : Int) ≤ bound then some (pure vs, r1.2) else product bound fuel r1.2 vs) with
      | none => none
      | some r2 => some (r1.1 ++ r2.1 ++ productGrid p q us vs vars, r2.2)

/-- amo.go:40-42 -/
def productBound (b : Int) : Int := if b = 0 then 20 else b

/-- amo.go:96-127 `amoNested` -/
def nested (gs : Int) : Nat → Nat → List (Lit (EV α)) → Option (List (Clause α) × Nat)
  | 0, _, _ => none
  | fuel + 1, k, vars =>
    if (vars.length : Int) ≤ gs then some (pure vars, k)
    else
      let h := vars.length / 2
      match nested gs fuel (k + 1) (vars.take h ++ [al k]) with
      | none => none
      | some r1 =>
        match nested gs fuel r1.2 (vars.drop h ++ [(al k).neg]) with
        | none => none
        | some r2 => some (r1.1 ++ r2.1, r2.2)
/-- amo.go:97-99 -/
def nestedSize (g : Int) : Int := if g = 0 then 4 else g

/-- amo.go:139-155: the loop cuts the literals into groups, `gs` literals each, the last one possibly smaller; `c` is `i % gs` -/
def cut (gs : Nat) : Nat → List (Lit (EV α)) → List (Lit (EV α)) → List (List (Lit (EV α)))
  | _, _, [] => []
  | c, cur, [x] => let _ := c; [cur ++ [x]]
  | c, cur, x :: xs => if c + 1 = gs then (cur ++ [x]) :: cut gs 0 [] xs else cut gs (c + 1) (cur ++ [x]) xs

/-- amo.go:141-154: clauses for one group whose auxiliary variable is `k` -/
def commanderGroup (ex : Bool) (k : Nat) (g : List (Lit (EV α))) : List (Clause α) :=
  pure g ++ (if ex then [g ++ [al k]] else []) ++ g.map (fun l => [(al k).neg, l.neg])
/-- the groups one after the other -/
def commanderGroups (ex : Bool) : Nat → List (List (Lit (EV α))) → List (Clause α)
  | _, [] => []
  | k, g :: gs => commanderGroup ex k g ++ commanderGroups ex (k + 1) gs

/-- amo.go:129-165 `amoCommander`; `ex` is `isExactlyOne` -/
def commander (gs : Nat) : Nat → Bool → Nat → List (Lit (EV α)) → Option (List (Clause α) × Nat)
  | 0, _, _, _ => none
  | fuel + 1, ex, k, vars =>
    if vars.length ≤ gs then some (pure vars ++ (if ex && decide (vars ≠ []) then [vars] else []), k)
    else
      let groups := cut gs 0 [] vars
      let m := groups.length
      match commander gs fuel true (k + m) ((auxs k m).map Lit.neg) with
      | none => none
      | some r => some (commanderGroups ex k groups ++ r.1, r.2)
/-- amo.go:130-132 -/
def commanderSize (g : Nat) : Nat := if g = 0 then 3 else g

/-- `i ^ (i >> 1)` -/
def gray (i : Nat) : Nat := i ^^^ (i >>> 1)

/-- amo.go:180-214, 227-250: which value, if any, the `j`-th bit must take for the group with this index.  In the first loop `i = 2·index`
and only bits common to two consecutive codes count, in the second loop `i = k + (index - k/2)`. -/
def code (k idx j : Nat) : Option Bool :=
  if idx < k / 2 then
    if (gray (2 * idx)).testBit j = (gray (2 * idx + 1)).testBit j then some ((gray (2 * idx)).testBit j) else none
  else some ((gray (k + (idx - k / 2))).testBit j)

/-- amo.go:279-289 `handleGrayCode`, and the single clause of `amoBinary` -/
def codeClauses (k0 : Nat) (g : List (Lit (EV α))) (j : Nat) (c : Option Bool) : List (Clause α) :=
  match c with
  | none => []
  | some true => g.map (fun l => [l.neg, al (k0 + j)])
  | some false => g.map (fun l => [l.neg, (al (k0 + j)).neg])

/-- all code clauses for the groups; `b` bits, auxiliary variables from `k0` on -/
def codes (k0 b k : Nat) (groups : List (List (Lit (EV α)))) : List (Clause α) :=
  (List.range groups.length).flatMap fun idx => (List.range b).flatMap fun j => codeClauses k0 (groups.getD idx []) j (code k idx j)

/-- amo.go:167-214 `amoBinary` -/
def binary (k0 : Nat) (vars : List (Lit (EV α))) : List (Clause α) × Nat :=
  let b := Nat.clog 2 vars.length
  (codes k0 b ((2 ^ b - vars.length) * 2) (vars.map (fun x => [x])), k0 + b)

/-- amo.go:252-271 `initializeGroups`: `m` groups, each taking ⌈rest / remaining groups⌉ literals -/
def splitGroups : Nat → List (Lit (EV α)) → List (List (Lit (EV α)))
  | 0, _ => []
  | m + 1, ls => let t := ceilDiv ls.length (m + 1); ls.take t :: splitGroups m (ls.drop t)

/-- amo.go:221-250 `bimanderIntern` with 273-283 `initializeBits` -/
def bimander (gs : Nat) (k0 : Nat) (vars : List (Lit (EV α))) : List (Clause α) × Nat :=
  let groups := splitGroups gs vars
  let b := Nat.clog 2 gs
  (groups.flatMap pure ++ codes k0 b ((2 ^ b - gs) * 2) groups, k0 + b)

/-- config.go: the at-most-one encoders -/
inductive AmoEnc | pure | ladder | product | nested | commander | binary | bimander | best
inductive BimGroup | fixed | half | sqrt

structure AmoCfg where
  enc : AmoEnc
  productBound : Int
  nestedSize : Int
  commanderSize : Nat
  bimander : BimGroup
  bimanderFixed : Nat

/-- amo.go:291-305 `computeGroupSize` -/
def bimanderSize (cfg : AmoCfg) (n : Nat) : Nat :=
  match cfg.bimander with
  | .fixed => if cfg.bimanderFixed = 0 then 3 else cfg.bimanderFixed
  | .half => n / 2
  | .sqrt => Nat.sqrt n

/-- cc_encoding.go:131-159 `amo`, 161-167 `bestAMO` -/
def amo (cfg : AmoCfg) (fuel k : Nat) (vars : List (Lit (EV α))) : Option (List (Clause α) × Nat) :=
  if vars.length ≤ 1 then some ([], k)
  else match cfg.enc with
    | .pure => some (pure vars, k)
    | .ladder => some (ladder k vars)
    | .product => product (productBound cfg.productBound) fuel k vars
    | .nested => nested (nestedSize cfg.nestedSize) fuel k vars
    | .commander => commander (commanderSize cfg.commanderSize) fuel false k vars
    | .binary => some (binary k vars)
    | .bimander => some (bimander (bimanderSize cfg vars.length) k vars)
    | .best => if vars.length ≤ 10 then some (pure vars, k) else product (productBound cfg.productBound) fuel k vars

/-- cc_encoding.go:169-180 `exo` -/
def exo (cfg : AmoCfg) (fuel k : Nat) (vars : List (Lit (EV α))) : Option (List (Clause α) × Nat) :=
  if vars.length = 0 then some ([[]], k)
  else if vars.length = 1 then some ([vars], k)
  else match amo cfg fuel k vars with
    | none => none
    | some r => some (r.1 ++ [vars], r.2)

end Verif.Enc
