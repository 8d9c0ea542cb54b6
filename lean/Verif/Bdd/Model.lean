import Mathlib.Data.List.Range
/-
Model of the BDD kernel: node table with hash consing, reference counts, reference stack, garbage collection,
operation caches, and the recursive operations. /repo/bdd/kernel.go, construction.go, cache.go.

Simplifications:
* the hash chains (`hash`, `next`) and the free list (`freepos`, `next`) are lists instead of linked cells;
* the mark bit of a level is a separate set during a garbage collection (levels are below 2^21, kernel.go:260);
* hash and cache positions are arbitrary functions (`Par`), so the theorems hold for all of them;
* no variable reordering (`reorderReady` is false unless reordering during construction is switched on);
* integers are unbounded; the identifier `quantvarsetId` does not wrap around.
`none` stands for a panic of the code (or for missing fuel, which the theorems exclude).
-/
namespace Verif.Bdd

/-- kernel.go:756-763; `low = none` is the `-1` of a free slot -/
structure Node where
  ref : Nat := 0
  lvl : Nat := 0
  low : Option Nat := none
  high : Nat := 0
deriving DecidableEq

/-- cache.go:9-15; `a = none` is `-1`, `bd` is the position of the big integer in `K.heap` -/
structure Entry where
  a : Option Nat := none
  b : Nat := 0
  c : Nat := 0
  res : Nat := 0
  bd : Nat := 0
deriving DecidableEq

/-- the hash function of the node table (kernel.go:719-729), the growth of the table (kernel.go:600-601), and the
positions in the caches (cache.go:49-51) for keys `r`, `pair(r, id)`, `triple(l, r, op)` -/
structure Par where
  hash : Nat → Nat → Nat → Nat → Nat
  grow : Nat → Nat
  s1 : Nat → Nat
  s2 : Nat → Nat → Nat
  s3 : Nat → Nat → Nat → Nat

/-- kernel.go:52-85 -/
structure K where
  /-- `varnum` -/
  n : Nat
  /-- `nodesize` -/
  size : Nat
  nd : Nat → Node
  bucket : Nat → List Nat
  free : List Nat
  /-- `refstack`, top first -/
  stack : List Nat
  apply : Nat → Entry
  quant : Nat → Entry
  misc : Nat → Entry
  qset : Nat → Int
  qid : Int
  qlast : Nat
  /-- `vars`: the nodes of the positive and the negative literal of each variable -/
  vars : List (Nat × Nat)
  /-- the big integers pointed to by the `misccache` -/
  heap : List Nat
  /-- `gbcollectnum` -/
  gcs : Nat

/-- assignment to one position of an array -/
def upd {β : Type} (f : Nat → β) (i : Nat) (x : β) : Nat → β := fun j => if j = i then x else f j

@[simp] theorem upd_self {β : Type} (f : Nat → β) (i : Nat) (x : β) : upd f i x i = x := by simp [upd]
theorem upd_ne {β : Type} (f : Nat → β) {i j : Nat} (x : β) (h : j ≠ i) : upd f i x j = f j := by simp [upd, h]

/-- kernel.go:12: `maxref` -/
def maxref : Nat := 1023

/-- kernel.go:570-584: `gbcRehash`; also the second loop of `gbc` (551-565) and the free list of `nodeResize` -/
def rehash (P : Par) (k : K) : K :=
  { k with
    bucket := fun h => (List.range' 2 (k.size - 2)).filter fun i =>
      match (k.nd i).low with
      | none => false
      | some lo => P.hash (k.nd i).lvl lo (k.nd i).high k.size == h
    free := (List.range' 2 (k.size - 2)).filter fun i => (k.nd i).low.isNone }

/-- kernel.go:586-596: `mark`; `m` is the set of marked nodes -/
def mark (nd : Nat → Node) : Nat → (Nat → Bool) → Nat → (Nat → Bool)
  | 0, m, _ => m
  | f + 1, m, i =>
    if i < 2 then m
    else if m i then m
    else match (nd i).low with
      | none => m
      | some lo => mark nd f (mark nd f (upd m i true) lo) (nd i).high

/-- kernel.go:542-550: the marked nodes of a garbage collection -/
def marks (k : K) : Nat → Bool :=
  (List.range k.size).foldl (fun m i => if 0 < (k.nd i).ref then mark k.nd (k.n + 1) m i else m)
    (k.stack.reverse.foldl (fun m i => mark k.nd (k.n + 1) m i) fun _ => false)

/-- cache.go:43-47 -/
def resetCache (c : Nat → Entry) : Nat → Entry := fun i => { c i with a := none }

/-- kernel.go:541-568: `gbc` -/
def gbc (P : Par) (k : K) : K :=
  let m := marks k
  let k1 := rehash P { k with
    nd := fun i => if 2 ≤ i ∧ m i = false then { k.nd i with low := none } else k.nd i }
  { k1 with
    apply := resetCache k1.apply, quant := resetCache k1.quant, misc := resetCache k1.misc, gcs := k1.gcs + 1 }

/-- kernel.go:598-623: `nodeResize(true)` -/
def nodeResize (P : Par) (k : K) : K :=
  rehash P { k with size := P.grow k.size, nd := fun i => if i < k.size then k.nd i else {} }

/-- kernel.go:502-514: make room if there is no free node -/
def room (P : Par) (k : K) : K :=
  if k.free = [] then
    let k1 := gbc P k
    if k1.free.length * 100 / k1.size ≤ 20 then nodeResize P k1 else k1
  else k

/-- kernel.go:515-524: take the first free node -/
def alloc (P : Par) (k : K) (lvl low high : Nat) : Option (Nat × K) :=
  match k.free with
  | [] => none
  | p :: ps =>
    let h := P.hash lvl low high k.size
    some (p, { k with
      nd := upd k.nd p { ref := (k.nd p).ref, lvl := lvl, low := some low, high := high }
      free := ps
      bucket := upd k.bucket h (p :: k.bucket h) })

/-- kernel.go:494-501: search in the hash chain -/
def findNode (P : Par) (k : K) (lvl low high : Nat) : Option Nat :=
  (k.bucket (P.hash lvl low high k.size)).find? fun i =>
    (k.nd i).lvl == lvl && (k.nd i).low == some low && (k.nd i).high == high

/-- kernel.go:490-525: `makeNode` -/
def makeNode (P : Par) (k : K) (lvl low high : Nat) : Option (Nat × K) :=
  if low = high then some (low, k)
  else match findNode P k lvl low high with
    | some i => some (i, k)
    | none => alloc P (room P k) lvl low high

/-- kernel.go:673-689: reference stack; the array has `2*varnum+4` places -/
def push (k : K) (i : Nat) : Option K :=
  if k.stack.length < 2 * k.n + 4 then some { k with stack := i :: k.stack } else none
def readRef (k : K) (i : Nat) : Option Nat := k.stack[i - 1]?
def pop2 (k : K) : K := { k with stack := k.stack.drop 2 }
def initRef (k : K) : K := { k with stack := [] }

/-- push both results, make the node, pop (kernel.go:390-399, 431 and the like) -/
def pushMake (P : Par) (k : K) (b : Nat) (lvl : K → Nat) : Option (Nat × K) := do
  let k1 ← push k b
  let lo ← readRef k1 2
  let hi ← readRef k1 1
  let (x, k2) ← makeNode P k1 (lvl k1) lo hi
  return (x, pop2 k2)

/-- kernel.go:38-44 -/
inductive Bop | and | or | imp | equiv
deriving DecidableEq, Repr
def Bop.v : Bop → Nat
  | .and => 0 | .or => 2 | .imp => 5 | .equiv => 6
/-- `tt[l<<1|r]` -/
def Bop.tt (op : Bop) (i : Nat) : Nat :=
  match op with
  | .and => [0, 0, 0, 1].getD i 0
  | .or => [0, 1, 1, 1].getD i 0
  | .imp => [1, 1, 0, 1].getD i 0
  | .equiv => [1, 0, 0, 1].getD i 0
def notV : Nat := 10

/-- kernel.go:340-377: the cases without recursion -/
def shortcut : Bop → Nat → Nat → Option Nat
  | .and, l, r =>
    if l = r then some l else if l = 0 ∨ r = 0 then some 0 else if l = 1 then some r
    else if r = 1 then some l else none
  | .or, l, r =>
    if l = r then some l else if l = 1 ∨ r = 1 then some 1 else if l = 0 then some r
    else if r = 0 then some l else none
  | .imp, l, r =>
    if l = 0 then some 1 else if l = 1 then some r else if r = 1 then some 1 else none
  | .equiv, _, _ => none

/-- the low (high) successor of an operand that is split, the operand itself otherwise -/
def lowIf (k : K) (d : Bool) (i : Nat) : Option Nat := if d then (k.nd i).low else some i
def highIf (k : K) (d : Bool) (i : Nat) : Nat := if d then (k.nd i).high else i

/-- kernel.go:338-438: `applyRec`. The operand with the smaller level is split, both if the levels are equal. -/
def applyRec (P : Par) (op : Bop) : Nat → K → Nat → Nat → Option (Nat × K)
  | 0, _, _, _ => none
  | f + 1, k, l, r =>
    match shortcut op l r with
    | some x => some (x, k)
    | none =>
      if l < 2 ∧ r < 2 then some (op.tt (l * 2 + r), k)
      else
        let s := P.s3 l r op.v
        if (k.apply s).a = some l ∧ (k.apply s).b = r ∧ (k.apply s).c = op.v then some ((k.apply s).res, k)
        else
          let dl := decide ((k.nd l).lvl ≤ (k.nd r).lvl)
          let dr := decide ((k.nd r).lvl ≤ (k.nd l).lvl)
          do
          let l0 ← lowIf k dl l
          let r0 ← lowIf k dr r
          let (a, k1) ← applyRec P op f k l0 r0
          let k2 ← push k1 a
          let (b, k3) ← applyRec P op f k2 (highIf k2 dl l) (highIf k2 dr r)
          let (x, k4) ← pushMake P k3 b fun k => if dl then (k.nd l).lvl else (k.nd r).lvl
          return (x, { k4 with apply := upd k4.apply s { k4.apply s with a := some l, b := r, c := op.v, res := x } })

/-- construction.go:66-90: `notRec` -/
def notRec (P : Par) : Nat → K → Nat → Option (Nat × K)
  | 0, _, _ => none
  | f + 1, k, r =>
    if r = 0 then some (1, k)
    else if r = 1 then some (0, k)
    else
      let s := P.s1 r
      if (k.apply s).a = some r ∧ (k.apply s).c = notV then some ((k.apply s).res, k)
      else do
        let r0 ← (k.nd r).low
        let (a, k1) ← notRec P f k r0
        let k2 ← push k1 a
        let (b, k3) ← notRec P f k2 (k2.nd r).high
        let (x, k4) ← pushMake P k3 b fun k => (k.nd r).lvl
        return (x, { k4 with apply := upd k4.apply s { k4.apply s with a := some r, c := notV, res := x } })

/-- construction.go:199-218: loop of `varset2svartable` -/
def svar : Nat → K → Nat → Option K
  | 0, _, _ => none
  | f + 1, k, n =>
    if n < 2 then some k
    else do
      let lo ← (k.nd n).low
      let (q, m) := if lo = 0 then (k.qid, (k.nd n).high) else (-k.qid, lo)
      svar f { k with qset := upd k.qset (k.nd n).lvl q, qlast := (k.nd m).lvl } m

/-- construction.go:220-233: loop of `varset2vartable` -/
def qvar : Nat → K → Nat → Option K
  | 0, _, _ => none
  | f + 1, k, n =>
    if n < 2 then some k
    else qvar f { k with qset := upd k.qset (k.nd n).lvl k.qid, qlast := (k.nd n).lvl } (k.nd n).high

/-- construction.go:102-142: `restrictRec` -/
def restrictRec (P : Par) (id : Nat) : Nat → K → Nat → Option (Nat × K)
  | 0, _, _ => none
  | f + 1, k, r =>
    if r < 2 ∨ k.qlast < (k.nd r).lvl then some (r, k)
    else
      let s := P.s2 r id
      if (k.misc s).a = some r ∧ (k.misc s).c = id then some ((k.misc s).res, k)
      else do
        let (x, k1) ← (
          if ((k.qset (k.nd r).lvl).natAbs : Int) = k.qid then
            if 0 < k.qset (k.nd r).lvl then restrictRec P id f k (k.nd r).high
            else (k.nd r).low.bind fun lo => restrictRec P id f k lo
          else do
            let r0 ← (k.nd r).low
            let (a, k1) ← restrictRec P id f k r0
            let k2 ← push k1 a
            let (b, k3) ← restrictRec P id f k2 (k2.nd r).high
            pushMake P k3 b fun k => (k.nd r).lvl : Option (Nat × K))
        return (x, { k1 with misc := upd k1.misc s { k1.misc s with a := some r, c := id, res := x } })

/-- construction.go:183-185, 192: push the second result and combine both -/
def pushApply (P : Par) (op : Bop) (k : K) (b : Nat) : Option (Nat × K) := do
  let k1 ← push k b
  let lo ← readRef k1 2
  let hi ← readRef k1 1
  let (x, k2) ← applyRec P op (k.n + 1) k1 lo hi
  return (x, pop2 k2)

/-- construction.go:164-197: `quantRec` -/
def quantRec (P : Par) (op : Bop) (id : Nat) : Nat → K → Nat → Option (Nat × K)
  | 0, _, _ => none
  | f + 1, k, r =>
    if r < 2 ∨ k.qlast < (k.nd r).lvl then some (r, k)
    else
      let s := P.s1 r
      if (k.quant s).a = some r ∧ (k.quant s).c = id then some ((k.quant s).res, k)
      else do
        let r0 ← (k.nd r).low
        let (a, k1) ← quantRec P op id f k r0
        let k2 ← push k1 a
        let (b, k3) ← quantRec P op id f k2 (k2.nd r).high
        let (x, k4) ← (
          if k3.qset (k3.nd r).lvl = k3.qid then pushApply P op k3 b
          else pushMake P k3 b fun k => (k.nd r).lvl : Option (Nat × K))
        return (x, { k4 with quant := upd k4.quant s { k4.quant s with a := some r, c := id, res := x } })

/-- kernel.go:332-336 (no reordering, 315-320) -/
def kapply (P : Par) (op : Bop) (k : K) (l r : Nat) : Option (Nat × K) := applyRec P op (k.n + 1) (initRef k) l r

/-- construction.go:60-64 -/
def knot (P : Par) (k : K) (r : Nat) : Option (Nat × K) := notRec P (k.n + 1) (initRef k) r

/-- construction.go:92-100: `restrict` -/
def krestrict (P : Par) (k : K) (r var : Nat) : Option (Nat × K) :=
  if var < 2 then some (r, k)
  else do
    let k1 ← svar (k.n + 1) { k with qid := k.qid + 1 } var
    restrictRec P (var * 8 + 1) (k.n + 1) (initRef k1) r

/-- construction.go:144-152: `exists` -/
def kexists (P : Par) (k : K) (r var : Nat) : Option (Nat × K) :=
  if var < 2 then some (r, k)
  else do
    let k1 ← qvar (k.n + 1) { k with qid := k.qid + 1 } var
    quantRec P .or (var * 8) (k.n + 1) (initRef k1) r

/-- construction.go:154-162: `forAll` -/
def kforAll (P : Par) (k : K) (r var : Nat) : Option (Nat × K) :=
  if var < 2 then some (r, k)
  else do
    let k1 ← qvar (k.n + 1) { k with qid := k.qid + 1 } var
    quantRec P .and (var * 8 + 1) (k.n + 1) (initRef k1) r

/-- kernel.go:649-655 -/
def setRef (k : K) (i r : Nat) : K := { k with nd := upd k.nd i { k.nd i with ref := r } }
def setLvl (k : K) (i l : Nat) : K := { k with nd := upd k.nd i { k.nd i with lvl := l } }

/-- kernel.go:440-455: `addRef` (without the handler) -/
def addRef (k : K) (i : Nat) : Option K :=
  if i < 2 then some k
  else if k.size ≤ i then none
  else if (k.nd i).low = none then none
  else some (setRef k i (if (k.nd i).ref < maxref then (k.nd i).ref + 1 else (k.nd i).ref))

/-- kernel.go:457-477: `delRef` -/
def delRef (k : K) (i : Nat) : Option K :=
  if i < 2 then some k
  else if k.size ≤ i then none
  else if (k.nd i).low = none then none
  else if (k.nd i).ref = 0 then none
  else some (setRef k i (if (k.nd i).ref = maxref then (k.nd i).ref else (k.nd i).ref - 1))

/-- kernel.go:269-280: the literals of the variables `v, v+1, …` -/
def mkVars (P : Par) : Nat → K → Option K
  | 0, k => some k
  | m + 1, k => do
    let v := k.vars.length
    let (p, k1) ← makeNode P k v 0 1
    let k2 ← push k1 p
    let (q, k3) ← makeNode P k2 v 1 0
    let k4 := { k3 with stack := k3.stack.drop 1 }
    mkVars P m (setRef (setRef { k4 with vars := k4.vars ++ [(p, q)] } p maxref) q maxref)

/-- kernel.go:90-123, 259-287: `NewKernel` with `num` variables and a table of `sz` nodes. The number of variables is
set at once (the code counts it up in the loop, where nothing else reads it). -/
def newKernel (P : Par) (num sz : Nat) : Option K := do
  let k0 : K := {
    n := num, size := sz
    nd := fun i => if i = 0 then { ref := maxref, low := some 0, high := 0 }
      else if i = 1 then { ref := maxref, low := some 1, high := 1 } else {}
    bucket := fun _ => [], free := List.range' 2 (sz - 2), stack := []
    apply := fun _ => {}, quant := fun _ => {}, misc := fun _ => {}
    qset := fun _ => 0, qid := 0, qlast := 0, vars := [], heap := [], gcs := 0 }
  let k1 ← mkVars P num k0
  return { setLvl (setLvl k1 0 num) 1 num with qset := fun _ => 0, qid := 0 }

/-- construction.go:9-21 -/
def ithVar (k : K) (i : Nat) : Option Nat := (k.vars[i]?).map (·.1)
def nithVar (k : K) (i : Nat) : Option Nat := (k.vars[i]?).map (·.2)

end Verif.Bdd
