import Verif.Bdd.Api
/-
Model of the variable reordering of the BDD kernel, /repo/bdd/reordering.go: swapping of adjacent variables, set-up,
clean-up, and `SwapVariables`. During a reordering the levels of the nodes are variables.

Simplifications:
* each hash chain of the sub-table of a variable (`levels[v].start`, `size`) is a list `ch v p`; the sub-tables are disjoint
  (814-823), so a chain is given by the variable and the position in its sub-table;
* the mark bit of a level is a separate set;
* the counters that only steer the search for a good order (`nodenum`, `freenum`, `usednumBefore`) are left out: the
  reordering methods (101-123, 160-600) are sequences of moves of variables chosen by such counters, and the theorems hold
  for all sequences of moves.
`none` stands for a panic of the code (or for missing fuel, which the theorems exclude).
-/
namespace Verif.Bdd

/-- positions in the sub-table of a variable (156-158) and size of the sub-tables (814-823), for a size of the node table -/
structure RPar where
  pos : Nat → Nat → Nat → Nat
  cells : Nat → Nat

/-- state of a reordering: kernel.go:52-85, reordering.go:26-44 -/
structure RS where
  n : Nat
  size : Nat
  nd : Nat → Node
  free : List Nat
  /-- the size of the node table at the last call of `reorderSetLevellookup` -/
  tsz : Nat
  ch : Nat → Nat → List Nat
  l2v : Nat → Nat
  v2l : Nat → Nat
  /-- the pairs of the interaction matrix -/
  mat : List (Nat × Nat)
  resized : Bool

/-- kernel.go:479-483 -/
def incRef (nd : Nat → Node) (i : Nat) : Nat → Node :=
  upd nd i { nd i with ref := if (nd i).ref < maxref then (nd i).ref + 1 else (nd i).ref }

/-- kernel.go:473-477 -/
def decRef (nd : Nat → Node) (i : Nat) : Nat → Node :=
  upd nd i { nd i with ref := if (nd i).ref ≠ maxref ∧ 0 < (nd i).ref then (nd i).ref - 1 else (nd i).ref }

/-- reordering.go:932-953: `addrefRec`; `dep` are the variables marked in the array `dep`, `mat` are the pairs of the
interaction matrix so far (984-1003), for variables below `n` -/
def addref (n : Nat) (mat : List (Nat × Nat)) : Nat → (Nat → Node) → List Nat → Nat → Option ((Nat → Node) × List Nat)
  | 0, _, _, _ => none
  | f + 1, nd, dep, r =>
    if r < 2 then some (nd, dep)
    else if (nd r).ref = 0 then do
      let lo ← (nd r).low
      let (nd1, dep1) ← addref n mat f nd ((nd r).lvl :: dep) lo
      let (nd2, dep2) ← addref n mat f nd1 dep1 (nd1 r).high
      return (incRef nd2 r, dep2)
    else some (incRef nd r, (List.range n).filter fun w => decide (w ∈ dep) || decide (((nd r).lvl, w) ∈ mat))

/-- reordering.go:955-964: `addDependencies` -/
def addDeps (n : Nat) (mat : List (Nat × Nat)) (dep : List Nat) : List (Nat × Nat) :=
  (List.range n).flatMap fun a => ((List.range n).filter fun b =>
    decide ((a, b) ∈ mat) || (decide (a ∈ dep) && decide (b ∈ dep))).map fun b => (a, b)

/-- reordering.go:883-901: second loop of `markRoots`, over the roots -/
def refRoots (n : Nat) : List Nat → (Nat → Node) → List Nat → List (Nat × Nat) →
    Option ((Nat → Node) × List (Nat × Nat))
  | [], nd, _, mat => some (nd, mat)
  | r :: rs, nd, dep, mat => do
    let lo ← (nd r).low
    let (nd1, dep1) ← addref n mat (n + 1) nd ((nd r).lvl :: dep) lo
    let (nd2, dep2) ← addref n mat (n + 1) nd1 dep1 (nd1 r).high
    refRoots n rs nd2 dep2 (addDeps n mat dep2)

/-- reordering.go:870-882: the nodes with external references -/
def extRoots (size : Nat) (nd : Nat → Node) : List Nat := (List.range' 2 (size - 2)).filter fun i => decide (0 < (nd i).ref)

/-- reordering.go:903-919, 796-812: the nodes with references, by variable and position -/
def chains (Q : RPar) (size : Nat) (nd : Nat → Node) : Nat → Nat → List Nat := fun v p =>
  (List.range' 2 (size - 2)).filter fun i =>
    match (nd i).low with
    | none => false
    | some lo => decide (0 < (nd i).ref) && (nd i).lvl == v && Q.pos size lo (nd i).high == p

/-- reordering.go:850-919: `reorderInit` with `markRoots` and `reorderGbc` -/
def rInit (Q : RPar) (k : K) (l2v v2l : Nat → Nat) : Option RS := do
  let nd0 : Nat → Node := fun i => if 2 ≤ i ∧ i < k.size then { k.nd i with lvl := l2v (k.nd i).lvl } else k.nd i
  let (nd1, mat) ← refRoots k.n (extRoots k.size nd0) nd0 [] []
  let nd2 : Nat → Node := fun i => if 2 ≤ i ∧ i < k.size ∧ (nd1 i).ref = 0 then { nd1 i with low := none } else nd1 i
  return { n := k.n, size := k.size, nd := nd2, tsz := k.size, ch := chains Q k.size nd2
           free := (List.range' 2 (k.size - 2)).filter fun i => (nd2 i).ref == 0
           l2v := l2v, v2l := v2l, mat := mat, resized := false }

/-- reordering.go:652: the node has a child with the variable `b`. The nodes of the chains have children, see `RI.node`. -/
def onVar (nd : Nat → Node) (b q : Nat) : Bool :=
  match (nd q).low with
  | none => false
  | some lo => (nd lo).lvl == b || (nd (nd q).high).lvl == b

/-- reordering.go:640-665: `reorderDownSimple`; `b` is the variable after `a` -/
def downSimple (Q : RPar) (s : RS) (a b : Nat) : List Nat × RS :=
  ((List.range (Q.cells s.tsz)).foldl (fun t p => ((s.ch a p).filter (onVar s.nd b)).reverse ++ t) [],
   { s with ch := upd s.ch a fun p =>
      if p < Q.cells s.tsz then ((s.ch a p).filter fun q => !onVar s.nd b q).reverse else s.ch a p })

/-- kernel.go:598-623: `nodeResize(false)` -/
def rResize (P : Par) (s : RS) : RS :=
  { s with size := P.grow s.size, nd := fun i => if i < s.size then s.nd i else {}
           free := List.range' s.size (P.grow s.size - s.size) ++ s.free, resized := true }

/-- reordering.go:750-765: build a node -/
def rAlloc (Q : RPar) (s : RS) (a lo hi : Nat) : Option (Nat × RS) :=
  match s.free with
  | [] => none
  | p :: ps =>
    let h := Q.pos s.tsz lo hi
    some (p, { s with
      nd := incRef (incRef (upd s.nd p { ref := 1, lvl := a, low := some lo, high := hi }) lo) hi
      free := ps
      ch := upd s.ch a (upd (s.ch a) h (p :: s.ch a h)) })

/-- reordering.go:716-766: `reorderMakenode` -/
def rMake (P : Par) (Q : RPar) (s : RS) (a lo hi : Nat) : Option (Nat × RS) :=
  if lo = hi then some (lo, { s with nd := incRef s.nd lo })
  else match (s.ch a (Q.pos s.tsz lo hi)).find? fun i => (s.nd i).low == some lo && (s.nd i).high == hi with
    | some i => some (i, { s with nd := incRef s.nd i })
    | none => rAlloc Q (if s.free = [] then rResize P s else s) a lo hi

/-- reordering.go:676-689: the cofactors of `f` by the variable `b` -/
def cof (nd : Nat → Node) (b f : Nat) : Option (Nat × Nat) :=
  if (nd f).lvl = b then (nd f).low.map fun lo => (lo, (nd f).high) else some (f, f)

/-- reordering.go:698-712: release the old children and put in the new ones -/
def replace (Q : RPar) (s : RS) (b q f0 f1 g0 g1 : Nat) : RS :=
  let nd1 := decRef (decRef s.nd f0) f1
  let h := Q.pos s.tsz g0 g1
  { s with nd := upd nd1 q { nd1 q with lvl := b, low := some g0, high := g1 }
           ch := upd s.ch b (upd (s.ch b) h (q :: s.ch b h)) }

/-- reordering.go:667-714: `reorderSwap` -/
def rSwap (P : Par) (Q : RPar) (a b : Nat) : List Nat → RS → Option RS
  | [], s => some s
  | q :: qs, s => do
    let f0 ← (s.nd q).low
    let f1 := (s.nd q).high
    let (f00, f01) ← cof s.nd b f0
    let (f10, f11) ← cof s.nd b f1
    let (g0, s1) ← rMake P Q s a f00 f10
    let (g1, s2) ← rMake P Q s1 a f01 f11
    rSwap P Q a b qs (replace Q s2 b q f0 f1 g0 g1)

/-- reordering.go:776-792: one chain of `reorderLocalGbc`; `acc` is the new chain -/
def gbcChain : List Nat → (Nat → Node) → List Nat → List Nat → Option ((Nat → Node) × List Nat × List Nat)
  | [], nd, fr, acc => some (nd, fr, acc)
  | q :: qs, nd, fr, acc =>
    if 0 < (nd q).ref then gbcChain qs nd fr (q :: acc)
    else do
      let lo ← (nd q).low
      let nd1 := decRef (decRef nd lo) (nd q).high
      gbcChain qs (upd nd1 q { nd1 q with low := none }) (q :: fr) acc

/-- reordering.go:768-794: `reorderLocalGbc` on the positions `ps` of the sub-table of `b` -/
def localGbc (b : Nat) : List Nat → RS → Option RS
  | [], s => some s
  | p :: ps, s => do
    let (nd1, fr, acc) ← gbcChain (s.ch b p) s.nd s.free []
    localGbc b ps { s with nd := nd1, free := fr, ch := upd s.ch b (upd (s.ch b) p acc) }

/-- reordering.go:796-812: `reorderRehashAll` -/
def rehashAll (Q : RPar) (s : RS) : RS :=
  { s with tsz := s.size, ch := chains Q s.size s.nd
           free := (List.range' 2 (s.size - 2)).filter fun i => (s.nd i).ref == 0 }

/-- reordering.go:627-633: swap the tables; the levels are `l` and `l + 1` -/
def swapTabs (s : RS) (a l : Nat) : RS :=
  let b := s.l2v (l + 1)
  { s with l2v := upd (upd s.l2v l b) (l + 1) (s.l2v l)
           v2l := upd (upd s.v2l a (s.v2l b)) b (s.v2l a) }

/-- reordering.go:611-638: `reorderVardown` -/
def varDown (P : Par) (Q : RPar) (s : RS) (a : Nat) : Option RS :=
  if s.n ≤ a then none
  else if s.n ≤ s.v2l a + 1 then some s
  else do
    let b := s.l2v (s.v2l a + 1)
    let s0 := { s with resized := false }
    let s1 ← (
      if (a, b) ∈ s0.mat then do
        let s1 ← rSwap P Q a b (downSimple Q s0 a b).1 (downSimple Q s0 a b).2
        localGbc b (List.range (Q.cells s1.tsz)) s1
      else some s0 : Option RS)
    let s2 := swapTabs s1 a (s.v2l a)
    return if s2.resized then rehashAll Q s2 else s2

/-- reordering.go:602-609: `reorderVarup` -/
def varUp (P : Par) (Q : RPar) (s : RS) (a : Nat) : Option RS :=
  if s.n ≤ a then none
  else if s.v2l a ≠ 0 then varDown P Q s (s.l2v (s.v2l a - 1))
  else some s

/-- the calls of `reorderVardown` (`true`) and `reorderVarup` (`false`) by a reordering method -/
def moves (P : Par) (Q : RPar) : List (Bool × Nat) → RS → Option RS
  | [], s => some s
  | (d, a) :: ms, s => do
    let s1 ← (if d then varDown P Q s a else varUp P Q s a)
    moves P Q ms s1

/-- operation.go:302-312: `unmark`; `m` is the set of marked nodes -/
def unmark (nd : Nat → Node) : Nat → (Nat → Bool) → Nat → Option (Nat → Bool)
  | 0, _, _ => none
  | f + 1, m, i =>
    if i < 2 then some m
    else if m i = false then some m
    else match (nd i).low with
      | none => some m
      | some lo => do
        let m1 ← unmark nd f (upd m i false) lo
        unmark nd f m1 (nd i).high

/-- reordering.go:201-210: loop of `reorderDone`: the references that are kept -/
def keepRefs (nd : Nat → Node) (fuel : Nat) : List Nat → (Nat → Bool) → (Nat → Bool) → Option (Nat → Bool)
  | [], _, kp => some kp
  | i :: is, m, kp =>
    if m i then do
      let m1 ← unmark nd fuel m i
      keepRefs nd fuel is m1 (upd kp i true)
    else keepRefs nd fuel is m kp

/-- reordering.go:197-211: `reorderDone`; `roots` are the nodes with external references -/
def rDone (P : Par) (k : K) (roots : List Nat) (s : RS) : Option K := do
  let kp ← keepRefs s.nd (s.n + 1) (List.range' 2 (s.size - 2)) (fun i => decide (i ∈ roots)) fun _ => false
  return gbc P { k with
    size := s.size, free := s.free
    nd := fun i => if 2 ≤ i ∧ i < s.size then
        { s.nd i with ref := if kp i then (s.nd i).ref else 0, lvl := s.v2l (s.nd i).lvl }
      else s.nd i }

/-- a kernel with `level2var` and `var2level` -/
structure KO where
  k : K
  l2v : Nat → Nat
  v2l : Nat → Nat

/-- a reordering with the moves `ms` (101-123, 60-99) -/
def reorder (P : Par) (Q : RPar) (ms : List (Bool × Nat)) (o : KO) : Option KO := do
  let s ← rInit Q o.k o.l2v o.v2l
  let s1 ← moves P Q ms s
  let k1 ← rDone P o.k (extRoots o.k.size o.k.nd) s1
  return { k := k1, l2v := s1.l2v, v2l := s1.v2l }

/-- reordering.go:88-90 -/
def downTo (P : Par) (Q : RPar) (a l : Nat) : Nat → RS → Option RS
  | 0, s => if s.v2l a < l then none else some s
  | f + 1, s => if s.v2l a < l then (varDown P Q s a).bind (downTo P Q a l f) else some s

/-- reordering.go:92-94 -/
def upTo (P : Par) (Q : RPar) (a l : Nat) : Nat → RS → Option RS
  | 0, s => if l < s.v2l a then none else some s
  | f + 1, s => if l < s.v2l a then (varUp P Q s a).bind (upTo P Q a l f) else some s

/-- reordering.go:60-99: `swapVariables` (without variable blocks) -/
def swapVariables (P : Par) (Q : RPar) (v1 v2 : Nat) (o : KO) : Option KO :=
  if v1 = v2 then some o
  else if o.k.n ≤ v1 ∨ o.k.n ≤ v2 then none
  else
    let (a, b) := if o.v2l v2 < o.v2l v1 then (v2, v1) else (v1, v2)
    do
    let s ← rInit Q o.k o.l2v o.v2l
    let s1 ← downTo P Q a (o.v2l b) o.k.n s
    let s2 ← upTo P Q b (o.v2l a) o.k.n s1
    let k1 ← rDone P o.k (extRoots o.k.size o.k.nd) s2
    return { k := k1, l2v := s2.l2v, v2l := s2.v2l }

end Verif.Bdd
