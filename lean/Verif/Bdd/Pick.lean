import Verif.Bdd.Read
/-
Model of the functions that pick a model of a BDD, and of the support: `Model`, `ModelWithVariables`, `FullModel`, `Support`.
/repo/bdd/operation.go:11-105, 260-300, 340-353; bdd.go:357-404, 464-484. The functions build the BDD of a term with
`makeNode` (which may collect garbage and let the table grow) and read its literals from the node table.

Simplifications as in `Model.lean`; a variable without a name is the variable `none` (the code makes a literal of a variable
with the empty name, formula.go:51-54). The results of `makeNode` go to the reference stack and stay there.
-/
namespace Verif.Bdd
open Verif
variable {α : Type} [DecidableEq α]

/-- operation.go:29, 32, …: `pushRef(makeNodeUnsafe(…))` -/
def mkPush (P : Par) (k : K) (lvl lo hi : Nat) : Option (Nat × K) :=
  (makeNode P k lvl lo hi).bind fun x => (push x.2 x.1).map fun k1 => (x.1, k1)

/-- operation.go:22-32: `satOneRec` -/
def satOneRec (P : Par) : Nat → K → Nat → Option (Nat × K)
  | 0, _, _ => none
  | f + 1, k, r =>
    if r < 2 then some (r, k)
    else (k.nd r).low.bind fun lo =>
      if lo = 0 then (satOneRec P f k (k.nd r).high).bind fun x => mkPush P x.2 (x.2.nd r).lvl 0 x.1
      else (satOneRec P f k lo).bind fun x => mkPush P x.2 (x.2.nd r).lvl x.1 0

/-- operation.go:11-20: `satOne` -/
def satOne (P : Par) (k : K) (r : Nat) : Option (Nat × K) :=
  if r < 2 then some (r, k) else satOneRec P (k.n + 1) (initRef k) r

/-- operation.go:48-72: `satOneSetRec`; `c` is the BDD of the variables -/
def satOneSetRec (P : Par) (pol : Bool) : Nat → K → Nat → Nat → Option (Nat × K)
  | 0, _, _, _ => none
  | f + 1, k, r, c =>
    if r < 2 ∧ c < 2 then some (r, k)
    else if (k.nd r).lvl < (k.nd c).lvl then
      (k.nd r).low.bind fun lo =>
        if lo = 0 then (satOneSetRec P pol f k (k.nd r).high c).bind fun x => mkPush P x.2 (x.2.nd r).lvl 0 x.1
        else (satOneSetRec P pol f k lo c).bind fun x => mkPush P x.2 (x.2.nd r).lvl x.1 0
    else if (k.nd c).lvl < (k.nd r).lvl then
      (satOneSetRec P pol f k r (k.nd c).high).bind fun x =>
        if pol then mkPush P x.2 (x.2.nd c).lvl 0 x.1 else mkPush P x.2 (x.2.nd c).lvl x.1 0
    else
      (k.nd r).low.bind fun lo =>
        if lo = 0 then (satOneSetRec P pol f k (k.nd r).high (k.nd c).high).bind fun x => mkPush P x.2 (x.2.nd r).lvl 0 x.1
        else (satOneSetRec P pol f k lo (k.nd c).high).bind fun x => mkPush P x.2 (x.2.nd r).lvl x.1 0

/-- operation.go:34-46: `satOneSet` -/
def satOneSet (P : Par) (pol : Bool) (k : K) (r c : Nat) : Option (Nat × K) :=
  if r = 0 then some (r, k) else satOneSetRec P pol (k.n + 1) (initRef k) r c

/-- operation.go:80-83, 94-96, 101-103: nodes for the levels that are skipped, from below -/
def fill (P : Par) : List Nat → K → Nat → Option (Nat × K)
  | [], k, x => some (x, k)
  | v :: vs, k, x => (mkPush P k v x 0).bind fun y => fill P vs y.2 y.1

/-- operation.go:89-105: `fullSatOneRec` -/
def fullSatOneRec (P : Par) : Nat → K → Nat → Option (Nat × K)
  | 0, _, _ => none
  | f + 1, k, r =>
    if r < 2 then some (r, k)
    else (k.nd r).low.bind fun lo =>
      if lo ≠ 0 then (fullSatOneRec P f k lo).bind fun x =>
        (fill P (List.range' ((x.2.nd r).lvl + 1) ((x.2.nd lo).lvl - (x.2.nd r).lvl - 1)).reverse x.2 x.1).bind fun y =>
        mkPush P y.2 (y.2.nd r).lvl y.1 0
      else (fullSatOneRec P f k (k.nd r).high).bind fun x =>
        (fill P (List.range' ((x.2.nd r).lvl + 1) ((x.2.nd (x.2.nd r).high).lvl - (x.2.nd r).lvl - 1)).reverse x.2 x.1).bind
          fun y => mkPush P y.2 (y.2.nd r).lvl 0 y.1

/-- operation.go:74-87: `fullSatOne` -/
def fullSatOne (P : Par) (k : K) (r : Nat) : Option (Nat × K) :=
  if r = 0 then some (0, k)
  else (fullSatOneRec P (k.n + 1) (initRef k) r).bind fun x => fill P (List.range (x.2.nd r).lvl).reverse x.2 x.1

/-- operation.go:286-300: `supportRec`: marked nodes, levels found, greatest level -/
def supportRec (nd : Nat → Node) : Nat → (Nat → Bool) × (Nat → Bool) × Nat → Nat → (Nat → Bool) × (Nat → Bool) × Nat
  | 0, s, _ => s
  | f + 1, s, i =>
    if i < 2 then s
    else if s.1 i then s
    else match (nd i).low with
      | none => s
      | some lo =>
        supportRec nd f (supportRec nd f
          (upd s.1 i true, upd s.2.1 (nd i).lvl true, if s.2.2 < (nd i).lvl then (nd i).lvl else s.2.2) lo) (nd i).high

/-- operation.go:275-283: loop of `support`, over the levels found from below -/
def supportLoop (P : Par) : List Nat → K → Nat → Option (Nat × K)
  | [], k, x => some (x, k)
  | v :: vs, k, x => (addRef k x).bind fun k1 => (makeNode P k1 v 0 x).bind fun y => (delRef y.2 x).bind fun k2 =>
    supportLoop P vs k2 y.1

/-- operation.go:260-284: `support` -/
def support (P : Par) (k : K) (r : Nat) : Option (Nat × K) :=
  if r < 2 then some (0, k)
  else
    let s := supportRec k.nd (k.n + 1) (fun _ => false, fun _ => false, (k.nd r).lvl) r
    supportLoop P ((List.range' (k.nd r).lvl (s.2.2 + 1 - (k.nd r).lvl)).reverse.filter fun l => s.2.1 l) k 1

/-- operation.go:340-353: `allNodes`, the indices -/
def allNodes (k : K) (r : Nat) : List Nat :=
  if r < 2 then [] else (List.range k.size).filter fun i => mark k.nd (k.n + 1) (fun _ => false) r i

/-- bdd.go:472-482: the literal of a node of a term -/
def nodeLit (o : KO) (names : List α) (i : Nat) : Option (Lit (Option α)) :=
  if (o.k.nd i).low = some 0 then some ⟨names[o.l2v (o.k.nd i).lvl]?, true⟩
  else if (o.k.nd i).high = 0 then some ⟨names[o.l2v (o.k.nd i).lvl]?, false⟩
  else none

/-- bdd.go:464-484: `createModel`; the inner `none` is the error -/
def createModel (o : KO) (names : List α) (x : Nat) : Option (Option (List (Lit (Option α)))) :=
  if x = 0 then some none
  else if x = 1 then some (some [])
  else ((allNodes o.k x).mapM (nodeLit o names)).map some

/-- bdd.go:359-361: `Model`; the model and the kernel -/
def bModel (P : Par) (o : KO) (names : List α) (a : Nat) : Option (Option (List (Lit (Option α))) × K) :=
  (satOne P o.k a).bind fun x => (createModel { o with k := x.2 } names x.1).map fun m => (m, x.2)

/-- bdd.go:381-383: `FullModel` -/
def bFullModel (P : Par) (o : KO) (names : List α) (a : Nat) : Option (Option (List (Lit (Option α))) × K) :=
  (fullSatOne P o.k a).bind fun x => (createModel { o with k := x.2 } names x.1).map fun m => (m, x.2)

/-- bdd.go:367-377: `ModelWithVariables`, in the order of levels of a kernel without reordering -/
def bModelVars (P : Par) (w : W α) (a : Nat) (pol : Bool) (xs : List α) : Option (Option (List (Lit (Option α))) × W α) :=
  (compileLits P w (xs.map fun x => ⟨x, true⟩)).bind fun c => (satOneSet P pol c.2.k a c.1).bind fun x =>
    (createModel ⟨x.2, id, id⟩ c.2.names x.1).map fun m => (m, { c.2 with k := x.2 })

/-- bdd.go:396-403: `Support`, model.go:56-64: `PosVars` -/
def bSupport (P : Par) (o : KO) (names : List α) (a : Nat) : Option (List (Option α) × K) :=
  (support P o.k a).bind fun x => (createModel { o with k := x.2 } names x.1).map fun m =>
    (match m with
      | none => []
      | some ls => (ls.filter (·.pos)).map (·.var), x.2)

end Verif.Bdd
