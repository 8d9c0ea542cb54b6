import Verif.PB.Normalize
import Verif.Encoding.CC
import Mathlib.Data.Nat.Log
/-!
# Model of the encodings of pseudo-Boolean constraints

encoding/{pbc_encoding,pbc_swc,pbc_binary_merge,pbc_adder}.go.  The encoders are called with a normalized constraint `Σ cᵢ·lᵢ ≤ rhs`, whose
coefficients and right-hand side are not negative; they are natural numbers here.  Floating point computations (logarithms and powers of two in
the binary merge encoding) are exact here.
-/
namespace Verif.PB
open Verif Verif.Enc
variable {α : Type}

abbrev WTerms (α : Type) := List (Nat × Lit (EV α))

/-! ### sequential weight counter -/

/-- pbc_swc.go:7-19: the auxiliary variable `seqAuxiliary[i+1][j]` -/
def swcAux (k rhs i j : Nat) : Lit (EV α) := al (k + i * rhs + (j - 1))

/-- pbc_swc.go:20-36, one iteration of the outer loop, for the literal `l` with index `i` and coefficient `w` -/
def swcRow (k rhs i w : Nat) (l : Lit (EV α)) : List (Clause α) :=
  (List.range rhs).flatMap (fun j0 =>
    let j := j0 + 1
    (if 0 < i then [[(swcAux k rhs (i - 1) j).neg, swcAux k rhs i j]] else []) ++
    (if j ≤ w then [[l.neg, swcAux k rhs i j]] else []) ++
    (if 0 < i ∧ j + w ≤ rhs then [[(swcAux k rhs (i - 1) j).neg, l.neg, swcAux k rhs i (j + w)]] else [])) ++
  (if 0 < i then [[(swcAux k rhs (i - 1) (rhs + 1 - w)).neg, l.neg]] else [])

def swcRows (k rhs : Nat) : Nat → WTerms α → List (Clause α)
  | _, [] => []
  | i, t :: ts => swcRow k rhs i t.1 t.2 ++ swcRows k rhs (i + 1) ts

/-- pbc_swc.go:7-36 `encodePBCSWC` -/
def swc (k rhs : Nat) (ts : WTerms α) : List (Clause α) × Nat := (swcRows k rhs 0 ts, k + ts.length * rhs)

/-! ### adder networks -/

/-- pbc_adder.go:73-87 `faSum` with the new variable `x` -/
def faSum (a b c x : Lit (EV α)) : List (Clause α) :=
  [[a, b, c, x.neg], [a, b.neg, c.neg, x.neg], [a.neg, b, c.neg, x.neg], [a.neg, b.neg, c, x.neg],
   [a.neg, b.neg, c.neg, x], [a.neg, b, c, x], [a, b.neg, c, x], [a, b, c.neg, x]]
/-- pbc_adder.go:89-99 `faCarry` -/
def faCarry (a b c x : Lit (EV α)) : List (Clause α) :=
  [[b, c, x.neg], [a, c, x.neg], [a, b, x.neg], [b.neg, c.neg, x], [a.neg, c.neg, x], [a.neg, b.neg, x]]
/-- pbc_adder.go:101-109 `faExtra` -/
def faExtra (xc xs a b c : Lit (EV α)) : List (Clause α) :=
  [[xc.neg, xs.neg, a], [xc.neg, xs.neg, b], [xc.neg, xs.neg, c], [xc, xs, a.neg], [xc, xs, b.neg], [xc, xs, c.neg]]
/-- pbc_adder.go:111-119 `haSum` -/
def haSum (a b x : Lit (EV α)) : List (Clause α) :=
  [[a.neg, b.neg, x.neg], [a, b, x.neg], [a.neg, b, x], [a, b.neg, x]]
/-- pbc_adder.go:121-128 `haCarry` -/
def haCarry (a b x : Lit (EV α)) : List (Clause α) := [[a, x.neg], [b, x.neg], [a.neg, b.neg, x]]

/-- what remains of a bucket, the literals appended to the next one, the clauses and the counter -/
structure Red (α : Type) where
  rest : List (Lit (EV α))
  carries : List (Lit (EV α))
  cls : List (Clause α)
  k : Nat

/-- pbc_adder.go:51-68: full adders while the bucket has three literals, then perhaps a half adder.  The bucket is a queue. -/
def reduce (k : Nat) (b : List (Lit (EV α))) : Red α :=
  match b with
  | [] => ⟨[], [], [], k⟩
  | [x] => ⟨[x], [], [], k⟩
  | [x, y] => ⟨[al k], [al (k + 1)], haSum x y (al k) ++ haCarry x y (al (k + 1)), k + 2⟩
  | x :: y :: z :: r =>
    let q := reduce (k + 2) (r ++ [al k])
    ⟨q.rest, al (k + 1) :: q.carries, faSum x y z (al k) ++ faCarry x y z (al (k + 1)) ++ faExtra (al (k + 1)) (al k) x y z ++ q.cls, q.k⟩
termination_by b.length
decreasing_by simp

theorem reduce_carries (k : Nat) (b : List (Lit (EV α))) : (reduce k b).carries.length + 1 ≤ b.length + (if b.length = 0 then 1 else 0) := by
  induction k, b using reduce.induct with
  | case1 k => simp [reduce]
  | case2 k x => simp [reduce]
  | case3 k x y => simp [reduce]
  | case4 k x y z r ih =>
    rw [reduce]
    simp only [List.length_cons, List.length_append, List.length_nil] at ih ⊢
    rw [if_neg (by omega)] at ih ⊢
    omega

/-- pbc_adder.go:45-48: where the carries of a bucket of length `n` go -/
def passOn (n : Nat) (carries : List (Lit (EV α))) : List (List (Lit (EV α))) → List (List (Lit (EV α)))
  | [] => if 2 ≤ n then [carries] else []
  | nx :: r => (nx ++ carries) :: r

def total (bs : List (List (Lit (EV α)))) : Nat := (bs.map List.length).sum

theorem passOn_size (n : Nat) (c : List (Lit (EV α))) (bs : List (List (Lit (EV α)))) : total (passOn n c bs) ≤ total bs + c.length ∧ (passOn n c bs).length ≤ bs.length + 1 := by
  cases bs with
  | nil => simp only [passOn]; split <;> simp [total]
  | cons b bs => simp [passOn, total]; omega

/-- pbc_adder.go:39-71 `adderTree`: the literals of the result, from the lowest bit; `none` is the null literal -/
def adderTree (k : Nat) (bs : List (List (Lit (EV α)))) : List (Option (Lit (EV α))) × List (Clause α) × Nat :=
  match bs with
  | [] => ([], [], k)
  | b :: rest =>
    if b.isEmpty then
      let q := adderTree k rest
      (none :: q.1, q.2)
    else
      let r := reduce k b
      let q := adderTree r.k (passOn b.length r.carries rest)
      (r.rest.head? :: q.1, r.cls ++ q.2.1, q.2.2)
termination_by 2 * total bs + bs.length
decreasing_by
  · simp_all [total]
  · rename_i hb
    unfold total
    have h1 := reduce_carries k b
    have h2 := passOn_size b.length r.carries rest
    have h3 : 0 < b.length := by cases b with | nil => simp at hb | cons => simp
    simp only [total, List.map_cons, List.sum_cons, List.length_cons] at h2 ⊢
    rw [if_neg (by omega)] at h1
    have h4 : r.carries.length + 1 ≤ b.length := h1
    show 2 * (List.map List.length (passOn b.length r.carries rest)).sum + (passOn b.length r.carries rest).length < _
    omega

/-- pbc_adder.go:29-37 `ldInt`: only 31 bits are looked at -/
def ldInt (x : Nat) : Nat := (List.range 31).foldl (fun acc i => if x.testBit i then i + 1 else acc) 0

/-- pbc_adder.go:18-24: the bits of the coefficients -/
def bits (nb : Nat) (ts : WTerms α) : List (List (Lit (EV α))) := (List.range nb).map fun i => (ts.filter (fun t => t.1.testBit i)).map (·.2)

/-- pbc_adder.go:130-144 `numToBits`, from the highest bit, before the list is reversed -/
def numBitsHigh : Nat → Nat → List Bool
  | 0, _ => []
  | i + 1, num => if num < 2 ^ i then false :: numBitsHigh i num else true :: numBitsHigh i (num - 2 ^ i)
def numToBits (n num : Nat) : List Bool := (numBitsHigh n num).reverse

/-- pbc_adder.go:154-170: the part of a clause for the higher bits; `none` if the clause is skipped -/
def lteTail : List (Option (Lit (EV α))) → List Bool → Option (List (Lit (EV α)))
  | some x :: xs, true :: ys => (lteTail xs ys).map (x.neg :: ·)
  | none :: _, true :: _ => none
  | some x :: xs, false :: ys => (lteTail xs ys).map (x :: ·)
  | none :: xs, false :: ys => lteTail xs ys
  | _, _ => some []
/-- pbc_adder.go:146-177 `lessThanOrEqual` -/
def lte : List (Option (Lit (EV α))) → List Bool → List (Clause α)
  | some x :: xs, false :: ys => (match lteTail xs ys with | some c => [c ++ [x.neg]] | none => []) ++ lte xs ys
  | _ :: xs, _ :: ys => lte xs ys
  | _, _ => []

/-- pbc_adder.go:11-27 `encodePBCAdder` -/
def adder (k rhs : Nat) (ts : WTerms α) : List (Clause α) × Nat :=
  let r := adderTree k (bits (ldInt rhs) ts)
  (r.2.1 ++ lte r.1 (numToBits r.1.length rhs), r.2.2)

/-! ### binary merge -/

structure BmCfg where
  gac : Bool
  noSingle : Bool
  watchdog : Bool

/-- pbc_binary_merge.go:191-222 `unaryAdder` -/
def unaryAdder (k : Nat) (u v : List (Lit (EV α))) : Net α :=
  if u.isEmpty then ⟨v, [], k⟩
  else if v.isEmpty then ⟨u, [], k⟩
  else
    let w := auxs k (u.length + v.length)
    ⟨w, (List.range u.length).flatMap (fun a => (List.range v.length).flatMap fun b => ocl [oneg u[a]?, oneg v[b]?, w[a + b + 1]?])
      ++ (List.range v.length).flatMap (fun i => ocl [oneg v[i]?, w[i]?])
      ++ (List.range u.length).flatMap (fun i => ocl [oneg u[i]?, w[i]?]), k + (u.length + v.length)⟩

/-- pbc_binary_merge.go:160-189 `totalizer`.  The variables created before the recursion are replaced in the last step, they occur in no clause. -/
def bmTotalizer (k : Nat) (x : List (Lit (EV α))) : Net α :=
  match x with
  | [] => ⟨[], [], k⟩
  | [a] => ⟨[a], [], k⟩
  | a :: b :: r =>
    let x' := a :: b :: r
    let h := x'.length / 2
    let q1 := bmTotalizer (k + x'.length) (x'.take h)
    let q2 := bmTotalizer q1.k (x'.drop h)
    let q := unaryAdder q2.k q1.out q2.out
    ⟨q.out, q1.cls ++ q2.cls ++ q.cls, q.k⟩
termination_by x.length
decreasing_by
  · simp only [x', h, List.length_take, List.length_cons]; omega
  · simp only [x', h, List.length_drop, List.length_cons]; omega

/-- a clause, with the literal `gacLit` if there is one -/
def gcl (gac : Option (Lit (EV α))) (c : Clause α) : Clause α := gac.toList ++ c

/-- pbc_binary_merge.go:94-108: one bucket, and the clauses for the coefficients that are too large -/
def bmBucket (gac : Option (Lit (EV α))) (L t i : Nat) (tl : Lit (EV α)) (ts : WTerms α) : List (Lit (EV α)) × List (Clause α) :=
  let sel := ts.filter (fun s => s.1.testBit i)
  let big : Nat × Lit (EV α) → Bool := fun s => gac.isSome && decide (L ≤ s.1)
  ((if t.testBit i then [tl] else []) ++ (sel.filter (fun s => !big s)).map (·.2), (sel.filter big).map fun s => gcl gac [s.2.neg])

/-- pbc_binary_merge.go:117-147, one iteration of the loop over the buckets: the bucket `b` with its bound `kk` and the carries (none in the first
iteration).  The output is `bucketMerge[i]`, or `bucketCard[0]` in the first iteration. -/
def bmNode (z : Clause α) (cfg : BmCfg) (gac : Option (Lit (EV α))) (k : Nat) (carries : List (Lit (EV α))) (kk : Nat) (b : List (Lit (EV α))) : Net α :=
  let card := if cfg.watchdog then bmTotalizer k b else sort z .io kk k b
  let c1 := if kk ≤ b.length then ocl (gac.toList.map some ++ [oneg card.out[kk - 1]?]) else []
  if carries.isEmpty then ⟨card.out, card.cls ++ c1, card.k⟩
  else if card.out.isEmpty then ⟨carries, card.cls ++ c1, card.k⟩
  else
    let mg := if cfg.watchdog then unaryAdder card.k card.out carries else merge .io kk card.k card.out carries
    let c2 := if kk = mg.out.length ∨ (cfg.watchdog = true ∧ kk ≤ mg.out.length) then ocl (gac.toList.map some ++ [oneg mg.out[kk - 1]?]) else []
    ⟨mg.out, card.cls ++ c1 ++ mg.cls ++ c2, mg.k⟩

/-- pbc_binary_merge.go:117-157, the loop over the buckets `b` with their bounds `kk` -/
def bmLoop (z : Clause α) (cfg : BmCfg) (gac : Option (Lit (EV α))) : (k : Nat) → (carries : List (Lit (EV α))) → List (Nat × List (Lit (EV α))) → List (Clause α) × Nat
  | k, _, [] => ([], k)
  | k, carries, (kk, b) :: rest =>
    let n := bmNode z cfg gac k carries kk b
    let q := bmLoop z cfg gac n.k (evens n.out) rest
    (n.cls ++ q.1, q.2)

/-- pbc_binary_merge.go:69-158 `binaryMerge` for the literals `ts`, where `p` is the logarithm of `maxWeight` and `gac = none` stands for the null
literal.  The code adds the clauses for large coefficients while the buckets are filled. -/
def binaryMerge (z : Clause α) (cfg : BmCfg) (gac : Option (Lit (EV α))) (p leq k : Nat) (ts : WTerms α) : List (Clause α) × Nat :=
  let L := leq + 1
  let m := (L + 2 ^ p - 1) / 2 ^ p
  let N := m * 2 ^ p
  let t := N - L
  let tl : Lit (EV α) := al k
  let bs := (List.range (p + 1)).map fun i => bmBucket gac L t i tl ts
  let ks := (List.range (p + 1)).map fun i => (N + 2 ^ i - 1) / 2 ^ i
  let q := bmLoop z cfg gac (k + 1) [] (ks.zip (bs.map (·.1)))
  ([tl] :: bs.flatMap (·.2) ++ q.1, q.2)

/-- `slices.Max` -/
def maxWeight (ts : WTerms α) : Nat := (ts.map (·.1)).foldl max 0

/-- pbc_binary_merge.go:28-33: the literals after the `i`-th has been replaced by the last one -/
def bmRemove (ts : WTerms α) (i : Nat) : WTerms α := match ts.getLast? with | none => [] | some l => (ts.set i l).dropLast

/-- pbc_binary_merge.go:35-55: the constraint on the other literals if literal `x` with coefficient `c` is true -/
def bmGac (z : Clause α) (cfg : BmCfg) (mw rhs k : Nat) (x : Nat × Lit (EV α)) (ts : WTerms α) : List (Clause α) × Nat :=
  let units := if rhs - x.1 = 0 then ts.map (fun s => [x.2.neg, s.2.neg]) else []
  if mw = x.1 then
    if rhs - x.1 = 0 then (units, k) else binaryMerge z cfg (some x.2.neg) (Nat.log 2 (maxWeight ts)) (rhs - x.1) k ts
  else
    let q := binaryMerge z cfg (some x.2.neg) (Nat.log 2 mw) (rhs - x.1) k ts
    (units ++ q.1, q.2)

/-- pbc_binary_merge.go:20-60: the loop over the literals.  `single` is the code's floating point condition on a coefficient, an arbitrary predicate
here.  After the last iteration the list of literals is one shorter if the last literal has not been skipped; the literals before it are again in
their places. -/
def bmGacs (z : Clause α) (cfg : BmCfg) (single : Nat → Bool) (mw rhs : Nat) (ts : WTerms α) : Nat → List Nat → List (Clause α) × Nat
  | k, [] => ([], k)
  | k, i :: is =>
    match ts[i]? with
    | none => ([], k)
    | some x =>
      if cfg.noSingle && single x.1 then bmGacs z cfg single mw rhs ts k is
      else
        let q := bmGac z cfg mw rhs k x (bmRemove ts i)
        let r := bmGacs z cfg single mw rhs ts q.2 is
        (q.1 ++ r.1, r.2)

/-- pbc_binary_merge.go:61-63: the literals of the complete constraint, `lts[:len(lits)]` -/
def bmRest (cfg : BmCfg) (single : Nat → Bool) (ts : WTerms α) : WTerms α :=
  match ts.getLast? with
  | some t => if cfg.noSingle && single t.1 then ts else ts.dropLast
  | none => ts

/-- pbc_binary_merge.go:10-67 `encodePBCBinaryMerge` -/
def encodeBM (z : Clause α) (cfg : BmCfg) (single : Nat → Bool) (k rhs : Nat) (ts : WTerms α) : List (Clause α) × Nat :=
  let mw := maxWeight ts
  if cfg.gac then
    let q := bmGacs z cfg single mw rhs ts k (List.range ts.length)
    if cfg.noSingle && ts.any (fun t => cfg.noSingle && single t.1) then
      let r := binaryMerge z cfg none (Nat.log 2 mw) rhs q.2 (bmRest cfg single ts)
      (q.1 ++ r.1, r.2)
    else q
  else binaryMerge z cfg none (Nat.log 2 mw) rhs k ts

/-! ### the encoder -/

inductive PbEnc where | swc | binaryMerge | adder | best
deriving DecidableEq

structure PbCfg where
  enc : PbEnc
  bm : BmCfg
  single : Nat → Bool

/-- pbc_encoding.go:57-97 `encodePBC`, for `rhs ≥ 0`; `lits`, `coeffs` as a list of terms.  The overflow check for `rhs = MaxInt` is left out. -/
def encodePBC (z : Clause α) (cfg : PbCfg) (k rhs : Nat) (ts : WTerms α) : List (Clause α) × Nat :=
  if rhs = 0 then (ts.map fun t => [t.2.neg], k)
  else
    let units := (ts.filter (fun t => !decide (t.1 ≤ rhs))).map fun t => [t.2.neg]
    let ts' := ts.filter (fun t => decide (t.1 ≤ rhs))
    if ts'.length ≤ 1 then (units, k)
    else
      let q := match cfg.enc with
        | .swc | .best => swc k rhs ts'
        | .binaryMerge => encodeBM z cfg.bm cfg.single k rhs ts'
        | .adder => adder k rhs ts'
      (units ++ q.1, q.2)

end Verif.PB
