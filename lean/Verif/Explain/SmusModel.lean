import Verif.Explain.Model
import Verif.Opt.Model
/-!
# Model of `explanation/smus/smus.go`
-/
namespace Verif.Explain
open Verif Verif.Tree Verif.Opt
variable {α : Type} [DecidableEq α]

/-- surroundings of one optimization: answers of the solver, of the handler to the events of the optimization, and to its start event -/
structure OptEnv (α : Type) where
  call : SatOracle α
  resume : Nat → Bool
  start : Bool

/-- smus.go:75-86: the formulas on the grow solver (`cons`: the factory keeps contradictions) -/
def growContent (cons : Bool) (psel : Nat → α) (additional : List (Fm α)) (ps : List (Prp α)) : List (Fm α) :=
  additional ++ ps.zipIdx.map fun pi => tEquiv cons (.lit ⟨psel pi.2, true⟩) pi.1.fm

/-- smus.go:80-82: the selectors of the propositions -/
def assumptions (psel : Nat → α) (ps : List (Prp α)) : List α := (List.range ps.length).map psel

/-- `f.VariablesAsLiterals` -/
def posLits (xs : List α) : List (Lit α) := xs.map fun x => ⟨x, true⟩

/-- model/model.go:66-75 `PosVars` -/
def posVars (ls : List (Lit α)) : List α := (ls.filter (·.pos)).map (·.var)

/-- smus.go:84, 108: the map from selectors to propositions -/
def lookup (psel : Nat → α) (ps : List (Prp α)) (x : α) : Option (Prp α) :=
  (ps.zipIdx.find? fun pi => psel pi.2 = x).map (·.1)

/-- smus.go:94-115, the loop; `hs` are the formulas on the hitting-set solver.  `envH`, `envG` are the surroundings of the optimizations of `minimumHs` and `grow`
in the rounds to come, `ord` gives the order of variable sets. -/
def smusLoop (cons : Bool) (psel osel : Nat → α) (ord : List α → List α) (envH envG : Nat → OptEnv α) (ps : List (Prp α)) (content : List (Fm α)) :
    Nat → Nat → List (Fm α) → Res (Option (List (Prp α)))
  | 0, _, _ => .fuel
  | k + 1, r, hs =>
    let lits := posLits (assumptions psel ps)
    -- smus.go:118-124 `minimumHs`
    match maximize (envH r).call (envH r).resume (envH r).start osel 0 false hs lits with
    | .fuel => .fuel
    | .canceled _ => .canceled
    | .done none => .panic
    | .done (some v) =>
      let h := posVars (resultModel ord hs lits [] v)
      -- smus.go:126-143 `grow`
      let g := content ++ h.map fun x => .lit ⟨x, true⟩
      match maximize (envG r).call (envG r).resume (envG r).start osel 0 true g lits with
      | .fuel => .fuel
      | .canceled _ => .canceled
      | .done none =>
        match h.mapM (lookup psel ps) with
        | none => .panic
        | some props => .ok (some props)
      | .done (some w) =>
        let pos := posVars (resultModel ord g lits [] w)
        let c := (ord (assumptions psel ps).eraseDups).filter fun x => decide (x ∉ pos)
        smusLoop cons psel osel ord envH envG ps content k (r + 1) (hs ++ [tOr cons (c.map fun x => .lit ⟨x, true⟩)])

/-- smus.go:64-116 `ComputeWithHandler`; `call0` is the answer of the first solver call, `start` of the handler to the start event.  The result `none`: all
satisfiable. -/
def smus (cons : Bool) (start : Bool) (call0 : SatOracle α) (psel osel : Nat → α) (ord : List α → List α) (envH envG : Nat → OptEnv α)
    (additional : List (Fm α)) (ps : List (Prp α)) : Res (Option (List (Prp α))) :=
  if start then
    let content := growContent cons psel additional ps
    match call0 0 (content ++ (assumptions psel ps).map fun x => .lit ⟨x, true⟩) with
    | none => .canceled
    | some (some _) => .ok none
    | some none => smusLoop cons psel osel ord envH envG ps content (2 ^ ps.length + 1) 0 []
  else .canceled

end Verif.Explain
