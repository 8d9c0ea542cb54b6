import Verif.Bdd.Reorder
import Verif.Factory.Tree
/-
Model of the functions that read a BDD: paths to a constant, normal forms, formulas, enumeration of models, node counts,
variable profiles. /repo/bdd/operation.go, function.go, bdd.go. The order of variables is any order (`KO`).

Simplifications: a profile of a path is a function from variables (`none` is the value 2); the mark bits of nodes are a
separate set. `none` as a result stands for a panic, for a variable without a name (for which the code uses a variable that
does not exist), or for missing fuel; the theorems exclude all three.
-/
namespace Verif.Bdd
open Verif Verif.Tree
variable {α : Type} [DecidableEq α]

/-- operation.go:109-111, 132-134, 138-140, …: the variables at the levels `b - 1` down to `a` get the value 2 -/
def free (l2v : Nat → Nat) (a b : Nat) (p : Nat → Option Bool) : Nat → Option Bool :=
  (List.range' a (b - a)).reverse.foldl (fun p l => upd p (l2v l) none) p

/-- the index of a constant -/
def leafIx (b : Bool) : Nat := if b then 1 else 0

/-- operation.go:118-142 `allSatRec` (`goal = true`), 155-179 `allUnsatRec` (`goal = false`): the profile, which the code
changes in place, and the profiles that are added -/
def pathsRec (nd : Nat → Node) (l2v : Nat → Nat) (goal : Bool) :
    Nat → Nat → (Nat → Option Bool) → Option ((Nat → Option Bool) × List (Nat → Option Bool))
  | 0, _, _ => none
  | f + 1, r, p =>
    if r = leafIx goal then some (p, [p])
    else if r = leafIx (!goal) then some (p, [])
    else (nd r).low.bind fun lo =>
      (if lo = leafIx (!goal) then some (p, [])
        else pathsRec nd l2v goal f lo (free l2v ((nd r).lvl + 1) (nd lo).lvl (upd p (l2v (nd r).lvl) (some false)))).bind fun x =>
      (if (nd r).high = leafIx (!goal) then some (x.1, [])
        else pathsRec nd l2v goal f (nd r).high
          (free l2v ((nd r).lvl + 1) (nd (nd r).high).lvl (upd x.1 (l2v (nd r).lvl) (some true)))).map fun y =>
      (y.1, x.2 ++ y.2)

/-- operation.go:107-116 `allSat`, 144-153 `allUnsat` -/
def paths (o : KO) (goal : Bool) (r : Nat) : Option (List (Nat → Option Bool)) :=
  (pathsRec o.k.nd o.l2v goal (o.k.n + 1) r (free o.l2v 0 (o.k.nd r).lvl fun _ => some false)).map (·.2)

/-- function.go:83-102: the literals of a path -/
def pathLits (names : List α) (n : Nat) (cnf : Bool) (q : Nat → Option Bool) : Option (List (Lit α)) :=
  ((List.range n).filterMap fun i => (q i).map fun b => (i, b)).mapM fun x =>
    (names[x.1]?).map fun y => ⟨y, if cnf then !x.2 else x.2⟩

/-- function.go:73-111 `bddNormalform` -/
def bddNF (cons : Bool) (o : KO) (names : List α) (cnf : Bool) (a : Nat) : Option (Fm α) :=
  (paths o (!cnf) a).bind fun ps => (ps.mapM (pathLits names o.k.n cnf)).map fun ts =>
    if cnf then tAnd cons (ts.map tClause) else tOr cons (ts.map tMinterm)

/-- operation.go:364-386 `toFormulaRec`; `goal` is `followPathsToTrue` -/
def toFormulaRec (cons : Bool) (o : KO) (names : List α) (goal : Bool) : Nat → Nat → Option (Fm α)
  | 0, _ => none
  | f + 1, r =>
    if r = 1 then some (tConst goal)
    else if r = 0 then some (tConst !goal)
    else (names[o.l2v (o.k.nd r).lvl]?).bind fun x => (o.k.nd r).low.bind fun lo =>
      (if lo = leafIx (!goal) then some .fls
        else (toFormulaRec cons o names goal f lo).map fun g => tAnd cons [.lit ⟨x, false⟩, g]).bind fun l =>
      (if (o.k.nd r).high = leafIx (!goal) then some .fls
        else (toFormulaRec cons o names goal f (o.k.nd r).high).map fun g => tAnd cons [.lit ⟨x, true⟩, g]).map fun h =>
      tOr cons [l, h]

/-- operation.go:355-362 `toFormula` -/
def toFormula (cons : Bool) (o : KO) (names : List α) (goal : Bool) (r : Nat) : Option (Fm α) :=
  (toFormulaRec cons o names goal (o.k.n + 1) r).map fun g => if goal then g else tNot g

/-- bdd.go:229-237 `ToFormula`; the flag is used only if more than one is given -/
def bToFormula (cons : Bool) (o : KO) (names : List α) (flags : List Bool) (r : Nat) : Option (Fm α) :=
  toFormula cons o names (match flags with | b :: _ :: _ => b | _ => true) r

/-- function.go:27-54 `generateAllModels`; `is` are the positions to come -/
def genAll (names : List α) (rel : List Nat) : List Nat → (Nat → Option Bool) → List (List (Lit α)) → Option (List (List (Lit α)))
  | [], q, ms => (rel.mapM fun i => (names[i]?).map fun x => (⟨x, q i != some false⟩ : Lit α)).map fun m =>
      if m ∈ ms then ms else ms ++ [m]
  | i :: is, q, ms =>
    if q i ≠ none then genAll names rel is q ms
    else (genAll names rel is (upd q i (some false)) ms).bind (genAll names rel is (upd q i (some true)))

/-- function.go:10-25 `bddModelEnum` -/
def modelEnum (o : KO) (names : List α) (a : Nat) (xs : List α) : Option (List (List (Lit α))) :=
  let rel := xs.filterMap fun x => if x ∈ names then some (names.idxOf x) else none
  (paths o true a).bind fun ps => ps.foldlM (fun ms q => genAll names rel rel q ms) []

/-- kernel.go:527-539 `markCount` -/
def markCount (nd : Nat → Node) : Nat → (Nat → Bool) → Nat → (Nat → Bool) × Nat
  | 0, m, _ => (m, 0)
  | f + 1, m, i =>
    if i < 2 then (m, 0)
    else if m i then (m, 0)
    else match (nd i).low with
      | none => (m, 0)
      | some lo =>
        let a := markCount nd f (upd m i true) lo
        let b := markCount nd f a.1 (nd i).high
        (b.1, 1 + a.2 + b.2)

/-- operation.go:314-318 `nodeCount` -/
def nodeCount (o : KO) (a : Nat) : Nat := (markCount o.k.nd (o.k.n + 1) (fun _ => false) a).2

/-- operation.go:327-338 `varProfileRec` -/
def profileRec (nd : Nat → Node) (l2v : Nat → Nat) : Nat → (Nat → Bool) × (Nat → Nat) → Nat → (Nat → Bool) × (Nat → Nat)
  | 0, s, _ => s
  | f + 1, s, i =>
    if i < 2 then s
    else if s.1 i then s
    else match (nd i).low with
      | none => s
      | some lo =>
        let x := l2v (nd i).lvl
        profileRec nd l2v f (profileRec nd l2v f (upd s.1 i true, upd s.2 x (s.2 x + 1)) lo) (nd i).high

/-- operation.go:320-325 `varProfile` -/
def varProfile (o : KO) (a : Nat) : Nat → Nat := (profileRec o.k.nd o.l2v (o.k.n + 1) (fun _ => false, fun _ => 0) a).2

/-- bdd.go:422-429 `VariableOrder` -/
def variableOrder (o : KO) (names : List α) : List (Option α) := (List.range o.k.n).map fun l => names[o.l2v l]?

end Verif.Bdd
