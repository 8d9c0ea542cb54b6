import Mathlib.Data.Int.Order.Basic
/-!
# The DRUP check: `/repo/sat/proofs.go`

The check of a proof trace and the core it yields, line by line: parsing of clauses and trace, propagation which looks at marked clauses first,
the forward pass, the backward pass with deletions undone, and the analysis which marks the clauses used.

Simplifications
* `db` is a list of clause bodies with a list of marks (lowest bit of the identifier); pointers are clause indices.  The identifier comparison in `markWatch` is the comparison of indices.
* Maps from literals and variables are functions; the bounds of the arrays (`nVars`) are not checked, so that the model answers where the code panics with an index out of range.
* `falseStack[0..assignedPtr)` is a list with the latest entry first.
* The hash function of `parse` is a parameter.
* Loops over propagations have fuel; `none` is a panic or the end of the fuel.
* Literals are unbounded.
-/
namespace Verif.Drup

/-- proofs.go:42-62 `drupSolver` -/
structure D where
  cls : List (List Int) := []
  mkd : List Bool := []
  wl : Int → List (Nat × Bool) := fun _ => []
  fls : Int → Nat := fun _ => 0
  stk : List Int := []
  reason : Nat → Nat := fun _ => 0
  forced : Nat := 0
  processed : Nat := 0

def upd {α β : Type} [DecidableEq α] (f : α → β) (a : α) (b : β) : α → β := fun x => if x = a then b else f x

/-- replace the entry by the last one and shorten (518-519, 475-476, 209 with 146) -/
def swapPop {α : Type} (xs : List α) (p : Nat) : List α :=
  match xs.getLast? with
  | none => xs
  | some z => (xs.set p z).dropLast

/-- 216-220 `assign` -/
def D.assign (a : Int) (s : D) : D := { s with fls := upd s.fls (-a) 1, stk := -a :: s.stk }

/-- 525-527 `addWatchLit` -/
def D.addWatchLit (l : Int) (e : Nat × Bool) (s : D) : D := { s with wl := upd s.wl l (s.wl l ++ [e]) }

/-- 222-225 `addWatch` for the first two literals, 256/281/326: nothing for shorter clauses -/
def D.addWatches (c : Nat) (s : D) : Option D :=
  match s.cls[c]? with
  | none => none
  | some (x :: y :: _) => some ((s.addWatchLit x (c, false)).addWatchLit y (c, false))
  | some _ => some s

/-- 510-523 `removeWatch` -/
def D.removeWatch (c : Nat) (l : Int) (s : D) : Option D :=
  match (s.wl l).findIdx? (fun e => e.1 == c) with
  | none => none
  | some p => some { s with wl := upd s.wl l (swapPop (s.wl l) p) }

/-- 261-262, 337-340 -/
def D.removeWatches (c : Nat) (s : D) : Option D :=
  match s.cls[c]? with
  | none => none
  | some (x :: y :: _) => (s.removeWatch c x).bind fun s => s.removeWatch c y
  | some _ => some s

/-- 562-574 `markWatch`: the first entry of the clause gets the bit -/
def setBit (c : Nat) : List (Nat × Bool) → Option (List (Nat × Bool))
  | [] => none
  | e :: es => if e.1 = c then some ((e.1, true) :: es) else (setBit c es).map (e :: ·)

def D.markWatch (c : Nat) (l : Int) (s : D) : Option D := (setBit c (s.wl l)).map fun w => { s with wl := upd s.wl l w }

/-- 556-559 -/
def D.set3 (lits : List Int) (s : D) : D := { s with fls := fun l => if l ∈ lits then 3 else s.fls l }

/-- 547-560 `markClause`; `lits`: the literals from `clausePtr` on (all of them, or all but the first) -/
def D.markClause (c : Nat) (lits : List Int) (s : D) : Option D :=
  if s.mkd[c]? = some true then some (s.set3 lits)
  else
    let s := { s with mkd := s.mkd.set c true }
    match s.cls[c]? with
    | none => none
    | some (x :: y :: _) => ((s.markWatch c x).bind fun s => s.markWatch c y).map (·.set3 lits)
    | some _ => some s

/-- 531-542: the loop of `analyze` over the stack -/
def D.analyzeGo : List Int → D → Option D
  | [], s => some s
  | l :: rest, s =>
    let r := if s.fls l = 3 ∧ s.reason l.natAbs ≠ 0 then s.markClause (s.reason l.natAbs - 1) ((s.cls.getD (s.reason l.natAbs - 1) []).tail) else some s
    match r with
    | none => none
    | some s => D.analyzeGo rest { s with fls := upd s.fls l (if rest.length < s.forced then 1 else 0) }

/-- 529-545 `analyze` -/
def D.analyze (c : Nat) (s : D) : Option D :=
  match s.markClause c (s.cls.getD c []) with
  | none => none
  | some s => (s.analyzeGo s.stk).map fun s => { s with stk := s.stk.drop (s.stk.length - s.forced), processed := s.forced }

/-- 470-480: the first literal from the third on which is not false, and the literals with `lit` in its place -/
def pick (fls : Int → Nat) (lit : Int) : List Int → Option (Int × List Int)
  | [] => none
  | z :: zs => if fls z = 0 then some (z, lit :: zs) else (pick fls lit zs).map fun r => (r.1, z :: r.2)

inductive Vis
  | skip | moved | unit | conf
  deriving DecidableEq

/-- 460-499: one clause in the watch list of `lit`, at position `p` -/
def D.visitOne (lit : Int) (p : Nat) (e : Nat × Bool) (s : D) : Option (D × Vis) :=
  match s.cls[e.1]? with
  | some (x :: y :: zs) =>
    if s.fls (-x) ≠ 0 ∨ s.fls (-y) ≠ 0 then some (s, .skip)
    else
      let h := if x = lit then y else x
      match pick s.fls lit zs with
      | some (z, zs') =>
        let s := D.addWatchLit z e { s with cls := s.cls.set e.1 (h :: z :: zs') }
        some ({ s with wl := upd s.wl lit (swapPop (s.wl lit) p) }, .moved)
      | none =>
        let s := { s with cls := s.cls.set e.1 (h :: lit :: zs) }
        if s.fls h = 0 then some ({ s.assign h with reason := upd s.reason h.natAbs (e.1 + 1) }, .unit)
        else (s.analyze e.1).map (·, .conf)
  | _ => none

inductive Out
  | done | flip (w : Nat) | conf

/-- 455-500: the watch list of `lit` from position `p` on -/
def D.visit (check : Bool) (lit : Int) : Nat → Nat → D → Option (D × Out)
  | 0, _, _ => none
  | n + 1, p, s =>
    match (s.wl lit)[p]? with
    | none => some (s, .done)
    | some e =>
      if e.2 ≠ check then D.visit check lit n (p + 1) s
      else match s.visitOne lit p e with
        | none => none
        | some (s, .skip) => D.visit check lit n (p + 1) s
        | some (s, .moved) => D.visit check lit n p s
        | some (s, .unit) => if check = false then some (s, .flip (p + 1)) else D.visit check lit n (p + 1) s
        | some (s, .conf) => some (s, .conf)

/-- 441-507: `a0`, `a1` are `start[0]`, `start[1]`; `true`: conflict -/
def D.prop : Nat → Bool → Nat → Nat → Int → Nat → D → Option (D × Bool)
  | 0, _, _, _, _, _, _ => none
  | n + 1, check, a0, a1, l0, w0, s =>
    match s.stk.reverse[if check then a1 else a0]? with
    | none => if check then D.prop n false a0 a1 l0 w0 s else some ({ s with processed := s.stk.length }, false)
    | some lit =>
      match s.visit check lit n (if lit = l0 then w0 else 0) with
      | none => none
      | some (s, .conf) => some (s, true)
      | some (s, .flip w) => D.prop n true a0 a1 lit w s
      | some (s, .done) => D.prop n check (if check then a0 else a0 + 1) (if check then a1 + 1 else a1) l0 w0 s

/-- 431-508 `propagate` -/
def D.propagate (fuel : Nat) (s : D) : Option (D × Bool) := s.prop fuel true s.processed s.processed 0 0

/-- 266-279: literals which are not false come first (two of them); the buffer and the flag -/
def scan (fls : Int → Nat) : Nat → List Int → List Int → Bool → Nat → List Int × List Int × Bool
  | 0, body, buf, flag, _ => (body, buf, flag)
  | n + 1, body, buf, flag, p =>
    let lit := body.getD p 0
    let flag := flag || fls (-lit) != 0
    if fls lit = 0 then
      let body := if buf.length ≤ 1 then (body.set p (body.getD buf.length 0)).set buf.length lit else body
      scan fls n body (buf ++ [lit]) flag (p + 1)
    else scan fls n body buf flag (p + 1)

/-- entries of `adlist` -/
inductive Ent
  | add (c : Nat) | del (c : Nat)
  deriving DecidableEq

/-- 256-263: a deletion in the forward pass; a clause which is the reason of its first literal stays -/
def D.fwdDel (c : Nat) (s : D) : Option D :=
  match s.cls[c]? with
  | none => none
  | some (x :: _ :: _) => if s.reason x.natAbs = c + 1 then some s else s.removeWatches c
  | some _ => some s

inductive Fwd
  | sat | more | unsat

/-- 266-305: a lemma in the forward pass -/
def D.fwdAdd (fuel c : Nat) (s : D) : Option (D × Fwd) :=
  match s.cls[c]? with
  | none => none
  | some body =>
    let r := scan s.fls body.length body [] false 0
    match D.addWatches c { s with cls := s.cls.set c r.1 } with
    | none => none
    | some s =>
      if r.2.2 then some (s, .sat)
      else match r.2.1 with
        | [] => none
        | [u] =>
          match D.propagate fuel { s.assign u with reason := upd s.reason u.natAbs (c + 1), forced := s.processed } with
          | none => none
          | some (s, true) => some (s, .unsat)
          | some (s, false) => some (s, .more)
        | _ => some (s, .more)

/-- 247-313: the forward pass; the entries processed, latest first, with the mark for satisfied lemmas (288) -/
def fwd (fuel : Nat) : List Ent → List (Ent × Bool) → D → Option (D × List (Ent × Bool))
  | [], _, _ => none
  | .del c :: es, acc, s =>
    match s.fwdDel c with
    | none => none
    | some s => fwd fuel es ((.del c, false) :: acc) s
  | .add c :: es, acc, s =>
    match s.fwdAdd fuel c with
    | none => none
    | some (s, .sat) => fwd fuel es ((.add c, true) :: acc) s
    | some (s, .more) => fwd fuel es ((.add c, false) :: acc) s
    | some (s, .unsat) => some (s, (.add c, false) :: acc)

/-- 326-333: a deletion in the backward pass -/
def D.bwdDel (c : Nat) (s : D) : Option D :=
  match s.cls[c]? with
  | none => none
  | some (x :: _ :: _) => if s.reason x.natAbs = c + 1 then some s else s.addWatches c
  | some _ => some s

/-- 356-359: entries down to the literal -/
def popTo (u : Int) : List Int → (Int → Nat) → Option (List Int × (Int → Nat))
  | [], _ => none
  | l :: rest, fls => if l = -u then some (rest, upd fls l 0) else popTo u rest (upd fls l 0)

/-- 355-362 -/
def D.unwind (u : Int) (s : D) : Option D :=
  (popTo u (s.stk.drop (s.stk.length - s.forced)) s.fls).map fun r => { s with stk := r.1, fls := r.2, forced := r.1.length, processed := r.1.length }

/-- 355-362 with its condition -/
def D.unwindIf (flag : Bool) (buf : List Int) (s : D) : Option D :=
  match flag, buf with
  | true, [u] => s.unwind u
  | _, _ => some s

/-- 365-369 -/
def D.assumeAll : List Int → D → D
  | [], s => s
  | b :: bs, s => D.assumeAll bs { s.assign (-b) with reason := upd s.reason b.natAbs 0 }

/-- 364-373: the check of a marked lemma -/
def D.rup (fuel : Nat) (marked : Bool) (buf : List Int) (s : D) : Option D :=
  if marked then
    match (s.assumeAll buf).propagate fuel with
    | some (s, true) => some s
    | _ => none
  else some s

/-- 336-374: a lemma in the backward pass -/
def D.bwdAdd (fuel c : Nat) (sat flag : Bool) (s : D) : Option (D × Bool) :=
  match s.cls[c]? with
  | none => none
  | some body =>
    let marked := s.mkd.getD c false
    match s.removeWatches c with
    | none => none
    | some s =>
      if sat then some (s, flag)
      else
        let buf := body.filter fun l => s.fls l == 0
        let flag := flag || body.any fun l => s.fls (-l) != 0
        match s.unwindIf flag buf with
        | none => none
        | some s => (s.rup fuel marked buf).map (·, flag)

/-- 318-383: the backward pass -/
def bwd (fuel : Nat) : List (Ent × Bool) → Bool → D → Option D
  | [], _, s => some s
  | (.del c, _) :: es, flag, s =>
    match s.bwdDel c with
    | none => none
    | some s => bwd fuel es flag s
  | (.add c, sat) :: es, flag, s =>
    match s.bwdAdd fuel c sat flag with
    | none => none
    | some (s, flag) => bwd fuel es flag s

/-- 386-414: the marked original clauses -/
def D.core (n : Nat) (s : D) : List (List Int) := (((s.cls.zip s.mkd).take n).filter (·.2)).map (·.1)

/-- 227-429 `verify` -/
def D.verify (fuel n : Nat) (ents : List Ent) (s : D) : Option (List (List Int)) :=
  match (if s.processed < s.stk.length then s.propagate fuel else some (s, false)) with
  | none => none
  | some (s, true) => some (s.core n)
  | some (s, false) =>
    match fwd fuel ents [] { s with forced := s.processed } with
    | none => none
    | some (s, done) => (bwd fuel done false { s with forced := s.processed }).map (·.core n)

/-- 153-185: an original clause; `none`: `parse` returns `false` -/
def D.parseOne (b : List Int) (s : D) : Option D :=
  let c := s.cls.length
  let s := { s with cls := s.cls ++ [b], mkd := s.mkd ++ [false] }
  match b with
  | [] => none
  | [l] =>
    if s.fls l ≠ 0 then none
    else if s.fls (-l) = 0 then some { s.assign l with reason := upd s.reason l.natAbs (c + 1) } else some s
  | _ => s.addWatches c

/-- 108-191 for the original clauses -/
def D.parseOrig : List (List Int) → D → Option D
  | [], s => some s
  | b :: bs, s => match s.parseOne b with
    | none => none
    | some s => D.parseOrig bs s

/-- 195-214 `matchClause`: the position in the bucket -/
def matchClause (cls : List (List Int)) (b : List Int) (bucket : List Nat) : Option Nat :=
  bucket.findIdx? fun c => (cls.getD c []).all (· ∈ b) && (cls.getD c []).length == b.length

/-- 108-191 for the trace: the first number of a line is `-1` for a deletion; the first argument is the table of the clauses by their hashes -/
def parseTrace (hash : List Int → Nat) : (Nat → List Nat) → List (List Int) → List (List Int) → Option (List (List Int) × List Ent)
  | _, cls, [] => some (cls, [])
  | _, _, [] :: _ => none
  | ht, cls, (k :: b) :: ls =>
    if k = -1 then
      match matchClause cls b (ht (hash b)) with
      | none => none
      | some p =>
        match (ht (hash b))[p]? with
        | none => none
        | some c => (parseTrace hash (upd ht (hash b) (swapPop (ht (hash b)) p)) cls ls).map fun r => (r.1, .del c :: r.2)
    else
      let c := cls.length
      match b with
      | [] => some (cls ++ [b], [.add c])
      | _ => (parseTrace hash (upd ht (hash b) (ht (hash b) ++ [c])) (cls ++ [b]) ls).map fun r => (r.1, .add c :: r.2)

/-- 161-166 for the original clauses -/
def buckets (hash : List Int → Nat) : Nat → List (List Int) → (Nat → List Nat) → (Nat → List Nat)
  | _, [], ht => ht
  | c, b :: bs, ht => buckets hash (c + 1) bs (upd ht (hash b) (ht (hash b) ++ [c]))

/-- 169-172: deletions before the first lemma are skipped -/
def skipDels : List Ent → List Ent
  | .del _ :: es => skipDels es
  | es => es

/-- 23-26 `drupResult` -/
inductive Res
  | trivial | core (cs : List (List Int))
  deriving DecidableEq

/-- 28-40 `drupCompute` -/
def drupCompute (hash : List Int → Nat) (fuel : Nat) (orig trace : List (List Int)) : Option Res :=
  match D.parseOrig orig {} with
  | none => some .trivial
  | some s =>
    match parseTrace hash (buckets hash 0 orig fun _ => []) orig trace with
    | none => none
    | some (cls, ents) =>
      (D.verify fuel orig.length (skipDels ents) { s with cls := cls, mkd := s.mkd ++ List.replicate (cls.length - orig.length) false }).map .core

/-! ## examples -/

/-- `(a∨b)(a∨¬b)(¬a∨c)(¬a∨¬c)(d∨a)`: the lemma `a`, which contradicts the clauses by propagation -/
def exOrig : List (List Int) := [[1, 2], [1, -2], [-1, 3], [-1, -3], [4, 1]]

end Verif.Drup
