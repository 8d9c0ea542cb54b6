import Verif.Encoding.AmoProps
/-!
# Model of the at-most-k, at-least-k and exactly-k encodings

encoding/cc_totalizer.go, cc_modular_totalizer.go, cc_cardinality_network.go and the dispatch in cc_encoding.go.  Loops over index pairs are
products of ranges; an index into a slice is `l[i]?`, and a clause with an index out of range (where the code would panic) is not added — the
lemmas show that this does not happen.
-/
namespace Verif.Enc
open Verif
variable {α : Type}

abbrev OLit (α : Type) := Option (Lit (EV α))

/-- a clause given by optional literals -/
def ocl : List (OLit α) → List (Clause α)
  | [] => [[]]
  | none :: _ => []
  | some l :: os => (ocl os).map (l :: ·)

def oneg (o : OLit α) : OLit α := o.map Lit.neg

/-- `for i := 0; i <= a; i++ { for j := 0; j <= b; j++ { … } }` -/
def grid (a b : Nat) (f : Nat → Nat → List (Clause α)) : List (Clause α) :=
  (List.range (a + 1)).flatMap fun i => (List.range (b + 1)).flatMap fun j => f i j

/-! ### totalizer, cc_totalizer.go -/

/-- cc_totalizer.go:12-18 -/
inductive Bound | lower | upper | both
deriving DecidableEq
def Bound.up : Bound → Bool | .lower => false | _ => true
def Bound.lo : Bound → Bool | .upper => false | _ => true

/-- cc_totalizer.go:117-134, the body of the loops of `adderAMK` -/
def amkCell (left right out : List (Lit (EV α))) (rhs i j : Nat) : List (Clause α) :=
  if i = 0 ∧ j = 0 then []
  else if i + j > rhs + 1 then []
  else if i = 0 then ocl [oneg right[j - 1]?, out[j - 1]?]
  else if j = 0 then ocl [oneg left[i - 1]?, out[i - 1]?]
  else ocl [oneg left[i - 1]?, oneg right[j - 1]?, out[i + j - 1]?]
/-- cc_totalizer.go:114-137 `adderAMK` -/
def adderAMK (left right out : List (Lit (EV α))) (rhs : Nat) : List (Clause α) :=
  grid left.length right.length (amkCell left right out rhs)

/-- cc_totalizer.go:143-153, the body of the loops of `adderALK` -/
def alkCell (left right out : List (Lit (EV α))) (i j : Nat) : List (Clause α) :=
  if i = 0 ∧ j = 0 then []
  else if i = 0 then ocl [right[j - 1]?, oneg out[left.length + j - 1]?]
  else if j = 0 then ocl [left[i - 1]?, oneg out[right.length + i - 1]?]
  else ocl [left[i - 1]?, right[j - 1]?, oneg out[i + j - 2]?]
/-- cc_totalizer.go:139-156 `adderALK` -/
def adderALK (left right out : List (Lit (EV α))) : List (Clause α) :=
  grid left.length right.length (alkCell left right out)

/-- cc_totalizer.go:82-97: the literals of a child with `s` leaves: the last input (popped) or new variables.  `ins` holds the inputs in
reverse order, so popping takes the head. -/
def totChild (s k : Nat) (ins : List (Lit (EV α))) : List (Lit (EV α)) × Nat × List (Lit (EV α)) :=
  if s = 1 then (ins.take 1, k, ins.drop 1) else (auxs k s, k + s, ins)

/-- the result of an encoder working on a stack of inputs -/
structure TotRes (α : Type) where
  cls : List (Clause α)
  k : Nat
  ins : List (Lit (EV α))

/-- cc_totalizer.go:78-112 `toCNF`; the recursion goes to the children with at least two leaves; the argument `s` is `len(*tv.outvars)` -/
def toCNF (rhs : Nat) (b : Bound) (s : Nat) (outs : List (Lit (EV α))) (k : Nat) (ins : List (Lit (EV α))) : TotRes α :=
  let l := totChild (s / 2) k ins
  let r := totChild (s - s / 2) l.2.1 l.2.2
  let cs := (if b.up then adderAMK l.1 r.1 outs rhs else []) ++ (if b.lo then adderALK l.1 r.1 outs else [])
  let R1 := if h : s / 2 > 1 then toCNF rhs b (s / 2) l.1 r.2.1 r.2.2 else ⟨[], r.2.1, r.2.2⟩
  let R2 := if h : s - s / 2 > 1 ∧ s - s / 2 < s then toCNF rhs b (s - s / 2) r.1 R1.k R1.ins else ⟨[], R1.k, R1.ins⟩
  ⟨cs ++ R1.cls ++ R2.cls, R2.k, R2.ins⟩
termination_by s
decreasing_by
  · omega
  · omega

/-- a cardinality encoding together with the vectors kept for tightening the bound (cc_incremental_data.go:12-21) -/
structure CCRes (α : Type) where
  cls : List (Clause α)
  k : Nat
  vec1 : List (Lit (EV α))
  vec2 : List (Lit (EV α))
  mod : Nat

/-- the clauses `¬out_i` for `i ≥ r` (cc_totalizer.go:23-25, cc_incremental_data.go:74-76) -/
def totUpper (outs : List (Lit (EV α))) (r : Nat) : List (Clause α) := (outs.drop r).map fun o => [o.neg]
/-- the clauses `out_i` for `i < r` (cc_totalizer.go:39-41, cc_incremental_data.go:117-119) -/
def totLower (outs : List (Lit (EV α))) (r : Nat) : List (Clause α) := (outs.take r).map fun o => [o]

/-- cc_totalizer.go:20-34 `totalizerAMK` with 66-76 `initializeConstraint` -/
def totalizerAMK (k : Nat) (vars : List (Lit (EV α))) (rhs : Nat) : CCRes α :=
  let n := vars.length
  let outs := auxs k n
  let R := toCNF rhs .upper n outs (k + n) vars.reverse
  ⟨R.cls ++ totUpper outs rhs, R.k, outs, [], 0⟩
/-- cc_totalizer.go:36-51 `totalizerALK` -/
def totalizerALK (k : Nat) (vars : List (Lit (EV α))) (rhs : Nat) : CCRes α :=
  let n := vars.length
  let outs := auxs k n
  let R := toCNF rhs .lower n outs (k + n) vars.reverse
  ⟨R.cls ++ totLower outs rhs, R.k, outs, [], 0⟩
/-- cc_totalizer.go:53-64 `totalizerEXK` -/
def totalizerEXK (k : Nat) (vars : List (Lit (EV α))) (rhs : Nat) : CCRes α :=
  let n := vars.length
  let outs := auxs k n
  let R := toCNF rhs .both n outs (k + n) vars.reverse
  ⟨R.cls ++ totLower outs rhs ++ totUpper outs rhs, R.k, outs, [], 0⟩

/-! ### modular totalizer, cc_modular_totalizer.go -/

/-- the upper output literals; `none` stands for the literal of the reserved variable `h0` -/
abbrev Upper (α : Type) := List (OLit α)

/-- cc_modular_totalizer.go:139-162, the body of the loops of `adder`; `carry = none` if the upper part is `h0` -/
def mtCell (mod : Nat) (crhs : Nat) (carry : OLit α) (lower ll rl : List (Lit (EV α))) (i j : Nat) : List (Clause α) :=
  if i + j > crhs + 1 ∧ crhs + 1 < mod then []
  else if i + j < mod then
    if i = 0 ∧ j ≠ 0 then
      if carry.isSome then ocl [oneg rl[j - 1]?, lower[i + j - 1]?, carry] else ocl [oneg rl[j - 1]?, lower[i + j - 1]?]
    else if j = 0 ∧ i ≠ 0 then
      if carry.isSome then ocl [oneg ll[i - 1]?, lower[i + j - 1]?, carry] else ocl [oneg ll[i - 1]?, lower[i + j - 1]?]
    else if i ≠ 0 then
      if carry.isSome then ocl [oneg ll[i - 1]?, oneg rl[j - 1]?, lower[i + j - 1]?, carry] else ocl [oneg ll[i - 1]?, oneg rl[j - 1]?, lower[i + j - 1]?]
    else []
  else if i + j > mod then ocl [oneg ll[i - 1]?, oneg rl[j - 1]?, lower[(i + j) % mod - 1]?]
  else ocl [oneg ll[i - 1]?, oneg rl[j - 1]?, carry]

/-- a clause of the present literals, added only if there are at least two (cc_modular_totalizer.go:198-208, 210-223) -/
def ifMany (c : Clause α) : List (Clause α) := if c.length > 1 then [c] else []

/-- cc_modular_totalizer.go:174-223, the body of the loops of `finalAdder`; `crhs` is `currentCardinalityRhs` -/
def finalCell (mod crhs : Nat) (carry : Lit (EV α)) (upper lu ru : Upper α) (i j : Nat) : List (Clause α) :=
  let close := if crhs % mod ≠ 0 then crhs / mod + 1 else crhs / mod
  if mod * (i + j) > close * mod then []
  else
    let a : OLit α := if i ≠ 0 then lu[i - 1]?.join else none
    let b : OLit α := if j ≠ 0 then ru[j - 1]?.join else none
    let c : OLit α := if i + j ≠ 0 then upper[i + j - 1]?.join else none
    let d : OLit α := upper[i + j]?.join
    (match c with
      | some c => ifMany ((oneg a).toList ++ (oneg b).toList ++ [c])
      | none => [])
    ++ ifMany (carry.neg :: ((oneg a).toList ++ (oneg b).toList ++ d.toList))

/-- cc_modular_totalizer.go:127-168 `adder` with 170-226 `finalAdder`; returns the clauses and the new counter -/
def mtAdder (mod crhs k : Nat) (upper : Upper α) (lower : List (Lit (EV α))) (lu : Upper α) (ll : List (Lit (EV α))) (ru : Upper α) (rl : List (Lit (EV α))) :
    List (Clause α) × Nat :=
  match upper.head? with
  | some (some _) =>
    (grid ll.length rl.length (mtCell mod crhs (some (al k)) lower ll rl) ++ grid lu.length ru.length (finalCell mod crhs (al k) upper lu ru), k + 1)
  | _ => (grid ll.length rl.length (mtCell mod crhs none lower ll rl), k)

/-- the literals of a child with `s` leaves: cc_modular_totalizer.go:75-92 (left, `hs = 2`), 93-109 (right, `hs = 1`), 110-115; a leaf pops the last
input and gets `hs` times `h0` as upper part -/
def mtChild (hs mod s k : Nat) (ins : List (Lit (EV α))) : Upper α × List (Lit (EV α)) × Nat × List (Lit (EV α)) :=
  if s = 1 then (List.replicate hs none, ins.take 1, k, ins.drop 1)
  else
    let u := s / mod
    let limit := if u % mod = 0 ∧ s < mod - 1 then s else mod - 1
    (if u = 0 then [none] else (auxs k u).map some, auxs (k + u) limit, k + u + limit, ins)

/-- cc_modular_totalizer.go:67-125 `mtToCNF`; `val` equals the number of leaves of the child -/
def mtToCNF (mod crhs : Nat) (s : Nat) (upper : Upper α) (lower : List (Lit (EV α))) (k : Nat) (ins : List (Lit (EV α))) : TotRes α :=
  let l := mtChild 2 mod (s / 2) k ins
  let r := mtChild 1 mod (s - s / 2) l.2.2.1 l.2.2.2
  let A := mtAdder mod crhs r.2.2.1 upper lower r.1 r.2.1 l.1 l.2.1
  let R1 := if h : s / 2 > 1 then mtToCNF mod crhs (s / 2) l.1 l.2.1 A.2 r.2.2.2 else ⟨[], A.2, r.2.2.2⟩
  let R2 := if h : s - s / 2 > 1 ∧ s - s / 2 < s then mtToCNF mod crhs (s - s / 2) r.1 r.2.1 R1.k R1.ins else ⟨[], R1.k, R1.ins⟩
  ⟨A.1 ++ R1.cls ++ R2.cls, R2.k, R2.ins⟩
termination_by s
decreasing_by
  · omega
  · omega

/-- cc_modular_totalizer.go:228-248 `encodeOutput`, the same code again in cc_incremental_data.go:54-73 and 120-140 -/
def mtOutput (mod : Nat) (up low : List (Lit (EV α))) (rhs : Nat) : List (Clause α) :=
  let ul := (rhs + 1) / mod
  let ll := (rhs + 1) - ul * mod
  (up.drop ul).map (fun o => [o.neg]) ++
    (if ul ≠ 0 ∧ ll ≠ 0 then (low.drop (ll - 1)).flatMap fun o => ocl [oneg up[ul - 1]?, some o.neg]
    else if ul = 0 then (low.drop (ll - 1)).map fun o => [o.neg]
    else ocl [oneg up[ul - 1]?])

/-- cc_modular_totalizer.go:9-25 `modtotalizerAMK` with 49-65 `initialize`; the upper part is never empty for `rhs < n` -/
def modAMK (k : Nat) (lits : List (Lit (EV α))) (rhs : Nat) : CCRes α :=
  let n := lits.length
  let mod := ceilSqrt (rhs + 1)
  let up := auxs k (n / mod)
  let low := auxs (k + n / mod) (mod - 1)
  let R := mtToCNF mod (rhs + 1) n (if n / mod = 0 then [none] else up.map some) low (k + n / mod + (mod - 1)) lits.reverse
  ⟨R.cls ++ mtOutput mod up low rhs, R.k, up, low, mod⟩
/-- cc_modular_totalizer.go:27-47 `modtotalizerALK` -/
def modALK (k : Nat) (vars : List (Lit (EV α))) (rhs : Nat) : CCRes α := modAMK k (vars.map Lit.neg) (vars.length - rhs)

/-! ### cardinality networks, cc_cardinality_network.go -/

inductive Dir | io | oi | both
deriving DecidableEq
def Dir.up : Dir → Bool | .oi => false | _ => true
def Dir.lo : Dir → Bool | .io => false | _ => true

/-- outputs, clauses and new counter of a sorting network -/
structure Net (α : Type) where
  out : List (Lit (EV α))
  cls : List (Clause α)
  k : Nat

/-- cc_cardinality_network.go:152-160 `comparator3` -/
def comp3 (x1 x2 y : Lit (EV α)) (d : Dir) : List (Clause α) :=
  (if d.up then [[x1.neg, y], [x2.neg, y]] else []) ++ (if d.lo then [[y.neg, x1, x2]] else [])
/-- cc_cardinality_network.go:162-173 `comparator4` -/
def comp4 (x1 x2 y1 y2 : Lit (EV α)) (d : Dir) : List (Clause α) :=
  (if d.up then [[x1.neg, y1], [x2.neg, y1], [x1.neg, x2.neg, y2]] else []) ++ (if d.lo then [[y1.neg, x1, x2], [y2.neg, x1], [y2.neg, x2]] else [])

/-- elements at the indices 0, 2, 4, … -/
def odds {β : Type} : List β → List β
  | [] => []
  | [x] => [x]
  | x :: _ :: r => x :: odds r
/-- elements at the indices 1, 3, 5, … -/
def evens {β : Type} (l : List β) : List β := odds (l.drop 1)

theorem odds_length {β : Type} : ∀ l : List β, (odds l).length = (l.length + 1) / 2
  | [] => by simp [odds]
  | [x] => by simp [odds]
  | x :: y :: r => by simp only [odds, List.length_cons, odds_length r]; omega
theorem evens_length {β : Type} (l : List β) : (evens l).length = l.length / 2 := by
  rw [evens, odds_length, List.length_drop]; omega

/-- cc_cardinality_network.go:316-345, the loop of `recursiveMerger` with `oddMerge[i:]`, `evenMerge[j:]` and the length of the output so far -/
def mergeLoop (d : Dir) (c : Nat) : Nat → Nat → List (Lit (EV α)) → List (Lit (EV α)) → Net α
  | k, len, o :: os, e :: es =>
    if len + 2 ≤ c then
      let z0 := al k
      let z1 := al (k + 1)
      if len + 2 = c then ⟨[z0, z1], comp4 o e z0 z1 d, k + 2⟩
      else
        let r := mergeLoop d c (k + 2) (len + 2) os es
        ⟨z0 :: z1 :: r.out, comp4 o e z0 z1 d ++ r.cls, r.k⟩
    else if len + 1 = c then ⟨[al k], comp3 o e (al k) d, k + 1⟩
    else mergeLoop d c k len os es
  | k, _, [], [] => ⟨[], [], k⟩
  | k, _, [], e :: es => ⟨(e :: es).getLast?.toList, [], k⟩
  | k, _, o :: os, [] => ⟨(o :: os).getLast?.toList, [], k⟩

/-- cc_cardinality_network.go:349-372 `directMerger` -/
def directMerger (m k : Nat) (A B : List (Lit (EV α))) : Net α :=
  let out := auxs k m
  let cs := (List.range (min m A.length)).flatMap (fun i => ocl [oneg A[i]?, out[i]?])
    ++ (List.range (min m B.length)).flatMap (fun i => ocl [oneg B[i]?, out[i]?])
    ++ (List.range A.length).flatMap (fun i => (List.range B.length).flatMap fun j =>
        if i + j + 1 < m then ocl [oneg A[i]?, oneg B[j]?, out[i + j + 1]?] else [])
  ⟨out, cs, k + m⟩

/-- cc_cardinality_network.go:264-286 `merge` with 288-347 `recursiveMerger`.  The output slices are empty when the functions are called, so the
calls of `clear` have no effect. -/
def merge (d : Dir) (m : Nat) (k : Nat) (A B : List (Lit (EV α))) : Net α :=
  if m = 0 then ⟨[], [], k⟩
  else
    match A, B with
    | [], B => ⟨B, [], k⟩
    | A, [] => ⟨A, [], k⟩
    | a :: A', b :: B' =>
      let c := min m ((a :: A').length + (b :: B').length)
      if d = .io then directMerger c k (a :: A') (b :: B')
      else
        let A2 := (a :: A').take c
        let B2 := (b :: B').take c
        if c = 1 then ⟨[al k], comp3 a b (al k) d, k + 1⟩
        else if h : A2.length = 1 ∧ B2.length = 1 then ⟨[al k, al (k + 1)], comp4 a b (al k) (al (k + 1)) d, k + 2⟩
        else
          let O := merge d (c / 2 + 1) k (odds A2) (odds B2)
          let E := merge d (c / 2) O.k (evens A2) (evens B2)
          let r := mergeLoop d c E.k 1 (O.out.drop 1) E.out
          ⟨O.out.take 1 ++ r.out, O.cls ++ E.cls ++ r.cls, r.k⟩
termination_by A.length + B.length
decreasing_by
  · simp only [odds_length, A2, B2, c, List.length_take, List.length_cons] at *
    omega
  · simp only [evens_length, A2, B2, c, List.length_take, List.length_cons] at *
    omega

/-- number of the first variable of column `j`, cc_cardinality_network.go:199-203 -/
def colOff (n : Nat) : Nat → Nat
  | 0 => 0
  | j + 1 => colOff n j + (n - j)
/-- `auxVars[i][j]` -/
def cv (k n i j : Nat) : Lit (EV α) := al (k + colOff n j + (i - j))

/-- cc_cardinality_network.go:190-228 `counterSorter`; it is called with direction `inputToOutput` only -/
def counterSorter (m k : Nat) (x : List (Lit (EV α))) : Net α :=
  let n := x.length
  let cs0 := (List.range n).flatMap fun i => ocl [oneg x[i]?, some (cv k n i 0)] ++ (if i > 0 then [[(cv k n (i - 1) 0).neg, cv k n i 0]] else [])
  let cs1 := (List.range (m - 1)).flatMap fun j' => (List.range (n - (j' + 1))).flatMap fun i' =>
    let j := j' + 1
    let i := j + i'
    ocl [oneg x[i]?, some (cv k n (i - 1) (j - 1)).neg, some (cv k n i j)] ++ (if i > j then [[(cv k n (i - 1) j).neg, cv k n i j]] else [])
  ⟨(List.range m).map (fun j => cv k n (n - 1) j), cs0 ++ cs1, k + colOff n m⟩

/-- the inputs selected by a bit mask -/
def selBits (mask : Nat) (x : List (Lit (EV α))) : List (Lit (EV α)) := (x.zipIdx.filter fun p => mask.testBit p.2).map (·.1)

/-- cc_cardinality_network.go:239-261, the loop of `directSorter`.  `clear(clause)` sets the elements of the slice to zero without shortening it;
`junk` is the number of these zero literals in front of the next clause, and `z` is what the literal zero means to the receiver of the clauses. -/
def directLoop (z : Clause α) (m : Nat) (x outs : List (Lit (EV α))) : Nat → List Nat → List (Clause α)
  | _, [] => []
  | junk, mask :: ms =>
    let s := selBits mask x
    if s.length ≤ m then
      ocl (((List.replicate junk z).flatten ++ s.map Lit.neg).map some ++ [outs[s.length - 1]?]) ++ directLoop z m x outs (junk + s.length + 1) ms
    else directLoop z m x outs (junk + m) ms
/-- cc_cardinality_network.go:230-262 `directSorter` -/
def directSorter (z : Clause α) (m k : Nat) (x : List (Lit (EV α))) : Net α :=
  let outs := auxs k m
  ⟨outs, directLoop z m x outs 0 ((List.range (2 ^ x.length - 1)).map (· + 1)), k + m⟩

/-- cc_cardinality_network.go:107-109 -/
def counterValue (m n : Int) : Int := 2 * n + (m - 1) * (2 * (n - 1) - 1) - (m - 2) - 2 * ((m - 1) * (m - 2) / 2)
/-- cc_cardinality_network.go:111-116 -/
def directValue (n : Nat) : Int := if n > 30 then 2 ^ 63 - 1 else 2 ^ n - 1

/-- cc_cardinality_network.go:118-150 `sort` with 175-188 `recursiveSorter` -/
def sort (z : Clause α) (d : Dir) (m : Nat) (k : Nat) (x : List (Lit (EV α))) : Net α :=
  if m = 0 then ⟨[], [], k⟩
  else
    match x with
    | [] => ⟨[], [], k⟩
    | [a] => ⟨[a], [], k⟩
    | [a, b] =>
      if min m 2 = 2 then ⟨[al k, al (k + 1)], comp4 a b (al k) (al (k + 1)) d, k + 2⟩ else ⟨[al k], comp3 a b (al k) d, k + 1⟩
    | a :: b :: c :: r =>
      let x' := a :: b :: c :: r
      let n := x'.length
      let m2 := min m n
      if d = .io then
        if counterValue m2 n < directValue n then counterSorter m2 k x' else directSorter z m2 k x'
      else
        let A := sort z d m2 k (x'.take (n / 2))
        let B := sort z d m2 A.k (x'.drop (n / 2))
        let M := merge d m2 B.k A.out B.out
        ⟨M.out, A.cls ++ B.cls ++ M.cls, M.k⟩
termination_by x.length
decreasing_by
  · simp only [List.length_take, n, x', List.length_cons]; omega
  · simp only [List.length_drop, n, x', List.length_cons]; omega

/-- cc_cardinality_network.go:9-30 `cnAmk` -/
def cnAmk (z : Clause α) (k : Nat) (vars : List (Lit (EV α))) (rhs : Nat) : CCRes α :=
  if rhs > vars.length / 2 then
    let geq := vars.length - rhs
    let s := sort z .oi geq k (vars.map Lit.neg)
    ⟨s.cls ++ (List.range geq).flatMap (fun i => ocl [s.out[i]?]), s.k, [], [], 0⟩
  else
    let s := sort z .io (rhs + 1) k vars
    ⟨s.cls ++ ocl [oneg s.out[rhs]?], s.k, [], [], 0⟩
/-- cc_cardinality_network.go:32-46 `cnAmkForIncremental` -/
def cnAmkInc (z : Clause α) (k : Nat) (vars : List (Lit (EV α))) (rhs : Nat) : CCRes α :=
  let s := sort z .io (rhs + 1) k vars
  ⟨s.cls ++ ocl [oneg s.out[rhs]?], s.k, s.out, [], 0⟩
/-- cc_cardinality_network.go:48-70 `cnAlk` -/
def cnAlk (z : Clause α) (k : Nat) (vars : List (Lit (EV α))) (rhs : Nat) : CCRes α :=
  let newRhs := vars.length - rhs
  if newRhs > vars.length / 2 then
    let geq := vars.length - newRhs
    let s := sort z .oi geq k vars
    ⟨s.cls ++ (List.range geq).flatMap (fun i => ocl [s.out[i]?]), s.k, [], [], 0⟩
  else
    let s := sort z .io (newRhs + 1) k (vars.map Lit.neg)
    ⟨s.cls ++ ocl [oneg s.out[newRhs]?], s.k, [], [], 0⟩
/-- cc_cardinality_network.go:72-91 `cnAlkForIncremental` -/
def cnAlkInc (z : Clause α) (k : Nat) (vars : List (Lit (EV α))) (rhs : Nat) : CCRes α := cnAmkInc z k (vars.map Lit.neg) (vars.length - rhs)
/-- cc_cardinality_network.go:93-103 `cnExk` -/
def cnExk (z : Clause α) (k : Nat) (vars : List (Lit (EV α))) (rhs : Nat) : CCRes α :=
  let s := sort z .both (rhs + 1) k vars
  ⟨s.cls ++ ocl [oneg s.out[rhs]?] ++ ocl [s.out[rhs - 1]?], s.k, [], [], 0⟩

/-! ### dispatch, cc_encoding.go -/

inductive AmkEnc | totalizer | modular | network | best
deriving DecidableEq

structure CCCfg where
  amo : AmoCfg
  amk : AmkEnc
  alk : AmkEnc
  /-- only totalizer, network and best exist (config.go) -/
  exk : AmkEnc

/-- unit clauses -/
def units (ls : List (Lit (EV α))) : List (Clause α) := ls.map fun l => [l]

/-- cc_encoding.go:182-204 `amk` -/
def amk (z : Clause α) (cfg : CCCfg) (k : Nat) (vars : List (Lit (EV α))) (rhs : Nat) : List (Clause α) × Nat :=
  if rhs ≥ vars.length then ([], k)
  else if rhs = 0 then (units (vars.map Lit.neg), k)
  else
    let r := match cfg.amk with
      | .totalizer => totalizerAMK k vars rhs
      | .modular => modAMK k vars rhs
      | .network => cnAmk z k vars rhs
      | .best => modAMK k vars rhs
    (r.cls, r.k)
/-- cc_encoding.go:206-236 `alk` -/
def alk (z : Clause α) (cfg : CCCfg) (k : Nat) (vars : List (Lit (EV α))) (rhs : Nat) : List (Clause α) × Nat :=
  if rhs > vars.length then ([[]], k)
  else if rhs = 0 then ([], k)
  else if rhs = 1 then ([vars], k)
  else if rhs = vars.length then (units vars, k)
  else
    let r := match cfg.alk with
      | .totalizer => totalizerALK k vars rhs
      | .modular => modALK k vars rhs
      | .network => cnAlk z k vars rhs
      | .best => modALK k vars rhs
    (r.cls, r.k)
/-- cc_encoding.go:238-266 `exk`; `none` is the panic for an unknown encoder -/
def exk (z : Clause α) (cfg : CCCfg) (k : Nat) (vars : List (Lit (EV α))) (rhs : Nat) : Option (List (Clause α) × Nat) :=
  if rhs > vars.length then some ([[]], k)
  else if rhs = 0 then some (units (vars.map Lit.neg), k)
  else if rhs = vars.length then some (units vars, k)
  else
    match cfg.exk with
      | .totalizer => let r := totalizerEXK k vars rhs; some (r.cls, r.k)
      | .modular => none
      | .network => let r := cnExk z k vars rhs; some (r.cls, r.k)
      | .best => let r := totalizerEXK k vars rhs; some (r.cls, r.k)

/-- cc_encoding.go:34-74 `EncodeCCInResult`.  `rhs` is the right-hand side stored in the constraint; for `<` with right-hand side zero the code
goes on with −1, which is not modelled (`none`).  `none` also stands for a recursion that does not end (`amo`). -/
def encodeCC (z : Clause α) (cfg : CCCfg) (fuel k : Nat) (c : Cmp) (rhs : Nat) (vars : List (Lit (EV α))) : Option (List (Clause α) × Nat) :=
  match c with
  | .le => if rhs = 1 then amo cfg.amo fuel k vars else some (amk z cfg k vars rhs)
  | .lt => if rhs = 0 then none else if rhs = 2 then amo cfg.amo fuel k vars else some (amk z cfg k vars (rhs - 1))
  | .ge => some (alk z cfg k vars rhs)
  | .gt => some (alk z cfg k vars (rhs + 1))
  | .eq => if rhs = 1 then exo cfg.amo fuel k vars else exk z cfg k vars rhs

end Verif.Enc
