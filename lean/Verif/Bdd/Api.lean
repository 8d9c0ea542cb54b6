import Verif.Bdd.Kernel
import Verif.Spec.Formula
/-
Model of the functions of /repo/bdd/bdd.go that build BDDs: variables of the kernel, literals, compilation of formulas,
operations on BDDs. A BDD is the index of its node (bdd.go:17-24); all BDDs belong to one kernel.
`none` stands for a panic.
-/
namespace Verif.Bdd
open Verif
set_option linter.unusedSectionVars false
variable {α σ : Type} [DecidableEq α]

/-- the kernel with `var2idx`/`idx2var` (kernel.go:54-55): the index of a variable is its position in `names` -/
structure W (α : Type) where
  k : K
  names : List α

/-- kernel.go:289-300: `getOrAddVarIndex` -/
def getOrAdd (w : W α) (x : α) : Option (Nat × W α) :=
  match w.names.idxOf? x with
  | some i => some (i, w)
  | none => if w.k.n ≤ w.names.length then none else some (w.names.length, { w with names := w.names ++ [x] })

/-- bdd.go:111-116, 155-161: the node of a literal -/
def litNode (w : W α) (l : Lit α) : Option (Nat × W α) := do
  let (i, w1) ← getOrAdd w l.var
  let p ← (if l.pos then ithVar w1.k i else nithVar w1.k i : Option Nat)
  return (p, w1)

/-- bdd.go:126-144: loop of `CompileLiterals` -/
def litsLoop (P : Par) : W α → Nat → List (Lit α) → Option (Nat × W α)
  | w, b, [] => some (b, w)
  | w, b, l :: ls => do
    let (o, w1) ← litNode w l
    let (x, k1) ← kapply P .and w1.k b o
    let k2 ← addRef k1 x
    let k3 ← delRef k2 b
    let k4 ← delRef k3 o
    litsLoop P { w1 with k := k4 } x ls

/-- bdd.go:104-147: `CompileLiterals` -/
def compileLits (P : Par) (w : W α) : List (Lit α) → Option (Nat × W α)
  | [] => some (0, w)
  | l :: ls => do
    let (b, w1) ← litNode w l
    litsLoop P w1 b ls

/-- result of a computation under a handler: the index (`none`: cancelled), the kernel, the state of the handler -/
abbrev R (α σ : Type) := Option (Option Nat × W α × σ)

/-- kernel.go:440-455: `addRef` with the handler `h` -/
def addRefH (h : σ → Bool × σ) (w : W α) (x : Nat) (s : σ) : R α σ :=
  if (h s).1 then (addRef w.k x).map fun k => (some x, { w with k := k }, (h s).2)
  else some (none, w, (h s).2)

/-- bdd.go:181-189, 201-208: combine two compiled operands -/
def combine (P : Par) (h : σ → Bool × σ) (op : Bop) (w : W α) (s : σ) (a b : Nat) :
    Option (Option Nat × W α × σ) := do
  let (x, k1) ← kapply P op w.k a b
  let (o, w2, s2) ← addRefH h { w with k := k1 } x s
  let k3 ← delRef w2.k a
  let k4 ← delRef k3 b
  return (o, { w2 with k := k4 }, s2)

/-- bdd.go:168-170 -/
def negate (P : Par) (h : σ → Bool × σ) (w : W α) (s : σ) (a : Nat) : Option (Option Nat × W α × σ) := do
  let (x, k1) ← knot P w.k a
  let (o, w2, s2) ← addRefH h { w with k := k1 } x s
  let k3 ← delRef w2.k a
  return (o, { w2 with k := k3 }, s2)

/-- continue with the index unless cancelled -/
def andThen (r : R α σ) (f : Nat → W α → σ → R α σ) : R α σ :=
  r.bind fun
    | (none, w, s) => some (none, w, s)
    | (some a, w, s) => f a w s

mutual
/-- bdd.go:149-219: `compile`; `enc` stands for the compilation of a cardinality or pseudo-Boolean constraint -/
def compileW (P : Par) (h : σ → Bool × σ) (enc : Fm α → W α → σ → R α σ) : Fm α → W α → σ → R α σ
  | .fls, w, s => some (some 0, w, s)
  | .tru, w, s => some (some 1, w, s)
  | .lit l, w, s => (litNode w l).map fun (p, w1) => (some p, w1, s)
  | .not f, w, s => andThen (compileW P h enc f w s) fun a w s => negate P h w s a
  | .impl f g, w, s => andThen (compileW P h enc f w s) fun a w s =>
      andThen (compileW P h enc g w s) fun b w s => combine P h .imp w s a b
  | .equiv f g, w, s => andThen (compileW P h enc f w s) fun a w s =>
      andThen (compileW P h enc g w s) fun b w s => combine P h .equiv w s a b
  | .and fs, w, s => compileN P h enc .and fs w s
  | .or fs, w, s => compileN P h enc .or fs w s
  | .cc c k xs, w, s => enc (.cc c k xs) w s
  | .pbc c k ts, w, s => enc (.pbc c k ts) w s
/-- bdd.go:191-195; without operands the code panics -/
def compileN (P : Par) (h : σ → Bool × σ) (enc : Fm α → W α → σ → R α σ) (op : Bop) : List (Fm α) → W α → σ → R α σ
  | [], _, _ => none
  | f :: fs, w, s => andThen (compileW P h enc f w s) fun a w s => compileL P h enc op fs a w s
/-- bdd.go:196-213 -/
def compileL (P : Par) (h : σ → Bool × σ) (enc : Fm α → W α → σ → R α σ) (op : Bop) :
    List (Fm α) → Nat → W α → σ → R α σ
  | [], a, w, s => some (some a, w, s)
  | f :: fs, a, w, s => andThen (compileW P h enc f w s) fun b w s =>
      andThen (combine P h op w s a b) fun x w s => compileL P h enc op fs x w s
end

/-- bdd.go:149-219 with the normal form `nnf` of the constraints (bdd.go:214-215), which contains no constraint -/
def compile (P : Par) (h : σ → Bool × σ) (nnf : Fm α → Fm α) : Fm α → W α → σ → R α σ :=
  compileW P h fun φ => compileW P h (fun _ _ _ => none) (nnf φ)

/-- bdd.go:240-297: operations of two BDDs (`Implies`, `ImpliedBy`, `Equivalence`, `And`, `Or`) -/
def bApply (P : Par) (op : Bop) (w : W α) (a b : Nat) : Option (Nat × W α) := do
  let (x, k1) ← kapply P op w.k a b
  let k2 ← addRef k1 x
  return (x, { w with k := k2 })

/-- bdd.go:239-243: `Negate` -/
def bNegate (P : Par) (w : W α) (a : Nat) : Option (Nat × W α) := do
  let (x, k1) ← knot P w.k a
  let k2 ← addRef k1 x
  return (x, { w with k := k2 })

/-- bdd.go:338-341: `Restrict` -/
def bRestrict (P : Par) (w : W α) (a : Nat) (ls : List (Lit α)) : Option (Nat × W α) := do
  let (c, w1) ← compileLits P w ls
  let (x, k1) ← krestrict P w1.k a c
  return (x, { w1 with k := k1 })

/-- bdd.go:345-348: `Exists` -/
def bExists (P : Par) (w : W α) (a : Nat) (xs : List α) : Option (Nat × W α) := do
  let (c, w1) ← compileLits P w (xs.map fun x => ⟨x, true⟩)
  let (x, k1) ← kexists P w1.k a c
  return (x, { w1 with k := k1 })

/-- bdd.go:352-355: `ForAll` -/
def bForAll (P : Par) (w : W α) (a : Nat) (xs : List α) : Option (Nat × W α) := do
  let (c, w1) ← compileLits P w (xs.map fun x => ⟨x, true⟩)
  let (x, k1) ← kforAll P w1.k a c
  return (x, { w1 with k := k1 })

/-- bdd.go:300-307 -/
def isTautology (a : Nat) : Bool := a == 1
def isContradiction (a : Nat) : Bool := a == 0

/-- kernel.go:128-134: `NewKernelWithOrdering`, and `NewKernel` for `order = []` -/
def newW (P : Par) (num sz : Nat) (order : List α) : Option (W α) := do
  let k ← newKernel P num sz
  order.foldlM (fun w x => (getOrAdd w x).map (·.2)) { k := k, names := [] }

end Verif.Bdd
