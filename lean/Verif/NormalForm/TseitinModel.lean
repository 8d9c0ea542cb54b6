import Verif.NormalForm.Model
import Verif.Assignment.Model
/-!
# Model of the Tseitin and Plaisted-Greenbaum transformations and of `CNF`, normalform/cnf.go

`aux n` is the `n`-th auxiliary variable handed out by `NewAuxVar(AuxCNF)` (formula/factory.go:955-959); `bot` is the variable with the
empty name: the zero `Literal` is the handle of the constant false, and `Literal(0).Negate` looks up an empty table entry and returns the
literal of the variable named "".
-/
namespace Verif.NF
open Verif Verif.Tree Verif.Spec Verif.Assignment
variable {α : Type} [DecidableEq α]

/-- cnf.go:420-429 `CNFAuxState`, together with the counter of auxiliary variables of the factory.  A value `none` in `lm` is a key stored
with the zero literal. -/
structure TS (α : Type) where
  fm : Fm α → Option (Fm α)
  lm : Fm α → Option (Option (Lit α))
  cnt : Nat

/-- `NewCNFAuxState` -/
def TS.new (cnt : Nat) : TS α := ⟨fun _ => none, fun _ => none, cnt⟩

def fupd {V : Type} (m : Fm α → V) (k : Fm α) (x : V) : Fm α → V := fun g => if g = k then x else m g

/-- reading `state.LiteralMap[g]`: a missing key is the zero literal -/
def TS.lit (s : TS α) (g : Fm α) : Option (Lit α) := (s.lm g).join
/-- `Literal.AsFormula` -/
def litFm : Option (Lit α) → Fm α
  | some l => .lit l
  | none => .fls
/-- `Literal.Negate(fac).AsFormula` -/
def negFm (bot : α) : Option (Lit α) → Fm α
  | some l => .lit l.neg
  | none => .lit ⟨bot, true⟩

/-- formula/number_of_atoms.go:5-20 on NNF formulas (and its other cases) -/
def atoms : Fm α → Nat
  | .not f => atoms f
  | .impl f g => atoms f + atoms g
  | .equiv f g => atoms f + atoms g
  | .and fs => atomsL fs
  | .or fs => atomsL fs
  | _ => 1
where atomsL : List (Fm α) → Nat
  | [] => 0
  | f :: fs => atoms f + atomsL fs

/-- insertion into the linked hash set of `SubNodes` -/
def lhsAdd (l : List (Fm α)) (f : Fm α) : List (Fm α) := if f ∈ l then l else l ++ [f]

mutual
/-- formula/subnode.go:8-26 `SubNodes` on NNF formulas (other operators never reach it) -/
def subNodes : Fm α → List (Fm α)
  | .and fs => lhsAdd (subNodesL fs []) (.and fs)
  | .or fs => lhsAdd (subNodesL fs []) (.or fs)
  | f => [f]
def subNodesL : List (Fm α) → List (Fm α) → List (Fm α)
  | [], acc => acc
  | f :: fs, acc => subNodesL fs (if f ∈ acc then acc else (subNodes f).foldl lhsAdd acc)
end

/-- results of `handleNary`: nops, operands, negOperands -/
structure NR (α : Type) where
  nops : List (Fm α)
  ops : List (Fm α)
  negs : List (Fm α)

section
variable (cons : Bool) (aux : Nat → α) (bot : α)

mutual
/-- cnf.go:366-404 `computeTseitin` (anything but literal, conjunction, disjunction panics, cnf.go:402; here: no change) -/
def computeTseitin : Fm α → TS α → TS α
  | .lit l, s =>
    if (s.fm (.lit l)).isSome then s
    else { s with fm := fupd s.fm (.lit l) (some (.lit l)), lm := fupd s.lm (.lit l) (some (some l)) }
  | .and fs, s =>
    if (s.fm (.and fs)).isSome then s
    else
      let ts : Lit α := ⟨aux s.cnt, true⟩
      let r := handleNary fs { s with cnt := s.cnt + 1 }
      let nops := r.1.nops ++ r.1.ops.map (fun o => tOr cons [tNot (.lit ts), o]) ++ [tOr cons (.lit ts :: r.1.negs)]
      { r.2 with lm := fupd r.2.lm (.and fs) (some (some ts)), fm := fupd r.2.fm (.and fs) (some (tAnd cons nops)) }
  | .or fs, s =>
    if (s.fm (.or fs)).isSome then s
    else
      let ts : Lit α := ⟨aux s.cnt, true⟩
      let r := handleNary fs { s with cnt := s.cnt + 1 }
      let nops := r.1.nops ++ r.1.negs.map (fun o => tOr cons [.lit ts, o]) ++ [tOr cons (.lit ts.neg :: r.1.ops)]
      { r.2 with lm := fupd r.2.lm (.or fs) (some (some ts)), fm := fupd r.2.fm (.or fs) (some (tAnd cons nops)) }
  | _, s => s
/-- cnf.go:406-417 `handleNary` -/
def handleNary : List (Fm α) → TS α → NR α × TS α
  | [], s => (⟨[], [], []⟩, s)
  | f :: fs, s =>
    let s1 := if isLit f then s else computeTseitin f s
    let n1 := if isLit f then [] else [(s1.fm f).getD .fls]
    let r := handleNary fs s1
    (⟨n1 ++ r.1.nops, litFm (s1.lit f) :: r.1.ops, negFm bot (s1.lit f) :: r.1.negs⟩, r.2)
end

/-- `assignment.New(fac, lit)` followed by `Restrict`, cnf.go:347-348, 355-356, 263-264.  (The zero literal is not reached from a state
built by Tseitin transformations; adding it to an assignment would leave the formula as it is.) -/
def restrictTop (l : Option (Lit α)) (f : Fm α) : Fm α :=
  match l with
  | some l => restrict cons ((new [l]).getD empty) f
  | none => f

/-- cnf.go:340-364 `TseitinCNF`; `cache` is the transformation cache of the factorization -/
def tseitinCNF (enc : Fm α → Fm α) (boundary : Int) (f : Fm α) (cache : List (Fm α × Fm α)) (s : TS α) :
    Fm α × List (Fm α × Fm α) × TS α :=
  let g := nnf cons enc f true
  if isCNF g then (g, cache, s)
  else
    match s.fm g with
    | some t => (restrictTop cons (s.lit g) t, cache, s)
    | none =>
      if (atoms g : Int) < boundary then
        let r := factorize cons true enc cache g
        (r.1, r.2, { s with lm := fupd s.lm f (some (s.lit g)) })
      else
        let s := (subNodes g).foldl (fun s op => computeTseitin cons aux bot op s) s
        (restrictTop cons (s.lit g) ((s.fm g).getD .fls), cache, { s with lm := fupd s.lm f (some (s.lit g)) })

/-! ### Plaisted-Greenbaum -/

/-- cnf.go:315-325 `pgVariable` -/
def pgVariable (f : Fm α) (s : TS α) : Option (Lit α) × TS α :=
  match f with
  | .lit l => (some l, s)
  | f =>
    match s.lm f with
    | some l => (l, s)
    | none =>
      let l : Lit α := ⟨aux s.cnt, true⟩
      (some l, { s with cnt := s.cnt + 1, lm := fupd s.lm f (some (some l)) })

/-- loops of `computePosPolarity` calling `pgVariable` for the operands, cnf.go:293-296, 301-303 -/
def pgVars : List (Fm α) → TS α → List (Option (Lit α)) × TS α
  | [], s => ([], s)
  | f :: fs, s =>
    let r := pgVariable aux f s
    let q := pgVars fs r.2
    (r.1 :: q.1, q.2)

/-- `fac.Clause` on literals some of which may be zero (the constant false, which is then an operand of the new disjunction) -/
def clauseFm : List (Fm α) → Fm α
  | [] => .fls
  | [f] => f
  | fs => .or fs

/-- cnf.go:283-313 `computePosPolarity` -/
def computePos (f : Fm α) (s : TS α) : Fm α × TS α :=
  match s.fm f with
  | some r => (r, s)
  | none =>
    let p := pgVariable aux f s
    match f with
    | .and fs =>
      let q := pgVars aux fs p.2
      let r := tAnd cons (q.1.map (fun l => clauseFm [negFm bot p.1, litFm l]))
      (r, { q.2 with fm := fupd q.2.fm f (some r) })
    | .or fs =>
      let q := pgVars aux fs p.2
      let r := clauseFm (negFm bot p.1 :: q.1.map litFm)
      (r, { q.2 with fm := fupd q.2.fm f (some r) })
    | _ => (.fls, p.2)

mutual
/-- cnf.go:265-281 `computeTransformation` -/
def computeTransformation : Fm α → TS α → Fm α × TS α
  | .lit _, s => (.tru, s)
  | .and fs, s =>
    let r := computePos cons aux bot (.and fs) s
    let q := computeTransformationL fs r.2
    (tAnd cons (r.1 :: q.1), q.2)
  | .or fs, s =>
    let r := computePos cons aux bot (.or fs) s
    let q := computeTransformationL fs r.2
    (tAnd cons (r.1 :: q.1), q.2)
  | _, s => (.fls, s)
def computeTransformationL : List (Fm α) → TS α → List (Fm α) × TS α
  | [], s => ([], s)
  | f :: fs, s =>
    let r := computeTransformation f s
    let q := computeTransformationL fs r.2
    (r.1 :: q.1, q.2)
end

/-- cnf.go:247-263 `PGCNF` -/
def pgCNF (enc : Fm α → Fm α) (boundary : Int) (f : Fm α) (cache : List (Fm α × Fm α)) (s : TS α) :
    Fm α × List (Fm α × Fm α) × TS α :=
  let g := nnf cons enc f true
  if isCNF g then (g, cache, s)
  else if (atoms g : Int) < boundary then
    let r := factorize cons true enc cache g
    (r.1, r.2, { s with lm := fupd s.lm f (some (s.lit g)) })
  else
    let r := computeTransformation cons aux bot g s
    (restrictTop cons (r.2.lit g) r.1, cache, { r.2 with lm := fupd r.2.lm f (some (r.2.lit g)) })

/-! ### `CNF` -/

/-- cnf.go:18-24 -/
inductive Alg | factorization | tseitin | pg | advanced
deriving DecidableEq

/-- cnf.go:33-39 `CNFConfig` -/
structure Cfg where
  alg : Alg
  fallback : Alg
  distBound : Int
  clauseBound : Int
  atomBound : Int

/-- what `CNF` threads through: factorization cache, counter of auxiliary variables, handler state -/
structure CS (α : Type) where
  cache : List (Fm α × Fm α)
  cnt : Nat
  bh : BH

/-- cnf.go:126-138 `singleAdvancedEncoding` (the fallback uses a fresh `CNFAuxState`, cnf.go:230, 328) -/
def single (enc : Fm α → Fm α) (cfg : Cfg) (f : Fm α) (c : CS α) : Fm α × CS α :=
  let r := factorizeWithHandler cons true (boundHdl cfg.distBound cfg.clauseBound) enc f ⟨c.bh, c.cache⟩
  if r.1.2 then (r.1.1, { c with cache := r.2.cache, bh := r.2.h })
  else
    let q := if cfg.fallback = .pg then pgCNF cons aux bot enc cfg.atomBound f r.2.cache (.new c.cnt)
      else tseitinCNF cons aux bot enc cfg.atomBound f r.2.cache (.new c.cnt)
    (q.1, ⟨q.2.1, q.2.2.cnt, r.2.h⟩)

def singleL (enc : Fm α → Fm α) (cfg : Cfg) : List (Fm α) → CS α → List (Fm α) × CS α
  | [], c => ([], c)
  | f :: fs, c =>
    let r := single cons aux bot enc cfg f c
    let q := singleL enc cfg fs r.2
    (r.1 :: q.1, q.2)

/-- cnf.go:110-124 `advancedEncoding` (a new handler per call) -/
def advanced (enc : Fm α → Fm α) (cfg : Cfg) (f : Fm α) (c : CS α) : Fm α × CS α :=
  let c := { c with bh := ⟨false, 0, 0⟩ }
  match f with
  | .and fs =>
    let r := singleL cons aux bot enc cfg fs c
    (tAnd cons r.1, r.2)
  | f => single cons aux bot enc cfg f c

/-- cnf.go:84-97 `CNF` -/
def cnf (enc : Fm α → Fm α) (cfg : Cfg) (f : Fm α) (c : CS α) : Fm α × CS α :=
  match cfg.alg with
  | .factorization => let r := factorize cons true enc c.cache f; (r.1, { c with cache := r.2 })
  | .pg => let q := pgCNF cons aux bot enc cfg.atomBound f c.cache (.new c.cnt); (q.1, { c with cache := q.2.1, cnt := q.2.2.cnt })
  | .tseitin => let q := tseitinCNF cons aux bot enc cfg.atomBound f c.cache (.new c.cnt); (q.1, { c with cache := q.2.1, cnt := q.2.2.cnt })
  | .advanced => advanced cons aux bot enc cfg f c

end

end Verif.NF
