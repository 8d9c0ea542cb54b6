import Verif.Spec.Formula
/-
Model of /repo/model/iter/iteration.go with the collectors of /repo/model/enum/enumeration.go and /repo/model/count/sat_counting.go.

The solver is its list of known variables and the formulas on it; a call of the solver is answered by an oracle (`none`: cancelled). Indices
of variables are replaced by the variables, a variable without index by a variable which is not known. `n` numbers the questions to the solver and to the handler.
`SaveState`/`LoadState` give back the earlier value (C20).
-/
namespace Verif.Enum
open Verif
variable {α : Type} [DecidableEq α]

/-- known variables (`name2idx`) and content of the solver -/
structure St (α : Type) where
  kn : List α
  fs : List (Fm α)

/-- adding literals as formulas (iteration.go:75) -/
def St.add (s : St α) (ls : List (Lit α)) : St α := ⟨s.kn ++ ls.map (·.var), s.fs ++ ls.map .lit⟩

/-- both collectors in one: `com` is the result of enumeration.go, `cnt` that of sat_counting.go (which is called without additional
variables, so that `neg` is empty) -/
structure Coll (α : Type) where
  base : List (List (Lit α))
  neg : List (Lit α)
  factor : Nat
  unc : List (List (Lit α))
  com : List (List (Lit α))
  cnt : Nat

/-- enumeration.go:152-163 `getCartesianProduct` -/
def cartesian : List α → List (List (Lit α))
  | xs => xs.foldl (fun r x => r.flatMap fun ls => [ls ++ [⟨x, true⟩], ls ++ [⟨x, false⟩]]) [[]]

/-- enumeration.go:78-93, sat_counting.go:60-68 -/
def newColl (dontCares addNotOn : List α) : Coll α :=
  ⟨cartesian dontCares, addNotOn.map fun x => ⟨x, false⟩, 2 ^ dontCares.length, [], [], 0⟩

/-- enumeration.go:95-107, sat_counting.go:70-80 `AddModel` -/
def Coll.addModel (c : Coll α) (m : List (Lit α)) : Coll α := { c with unc := c.unc ++ [c.neg ++ m] }
/-- enumeration.go:109-116, 139-150, sat_counting.go:82-90 `Commit` -/
def Coll.commit (c : Coll α) : Coll α :=
  { c with com := c.com ++ c.base.flatMap fun b => c.unc.map fun m => b ++ m, cnt := c.cnt + c.unc.length * c.factor, unc := [] }
/-- enumeration.go:118-124, sat_counting.go:92-98 `Rollback` -/
def Coll.rollback (c : Coll α) : Coll α := { c with unc := [] }

/-- solver, handler and strategy (strategy.go:17-46) -/
structure Cfg (α : Type) where
  call : Nat → List (Fm α) → Option (Option (α → Bool))
  go : Nat → Bool
  maxIter : Nat → Nat
  maxSplit : Nat → Nat
  split : List α → St α → Nat → List α
  reduce : List α → Nat → List α

/-- iteration.go:202-233 `generateBlockingClause` (`relevantVars` is never nil) -/
def block (rel : List α) (v : α → Bool) : Fm α := .or (rel.map fun x => .lit ⟨x, !v x⟩)
/-- core.go:1336-1346 `CreateModel` -/
def litsOf (rel : List α) (v : α → Bool) : List (Lit α) := rel.map fun x => ⟨x, v x⟩

/-- iteration.go:170-187: loop of `iterate`; `rel` are the known variables among `variables`, `all` those and the additional ones. Result: finished, success -/
def iterLoop (g : Cfg α) (kn rel all : List α) (max : Nat) : Nat → Nat → List (Fm α) → Coll α → Nat → Option (Bool × Bool × Coll α × Nat)
  | 0, _, _, _, _ => none
  | F + 1, found, fs, c, n =>
    match g.call n fs with
    | some (some v) =>
      if max ≤ found + 1 then some (false, true, c, n + 1)
      else if g.go (n + 1) then
        if kn = [] then some (true, true, c.addModel (litsOf all v), n + 2)
        else iterLoop g kn rel all max F (found + 1) (fs ++ [block rel v]) (c.addModel (litsOf all v)) (n + 2)
      else some (false, false, c.addModel (litsOf all v), n + 2)
    | _ => some (true, true, c, n + 1)

/-- iteration.go:157-200, 235-273 `iterate`; `add = []` also stands for nil -/
def iterate (g : Cfg α) (F : Nat) (s : St α) (vars add : List α) (max : Nat) (c : Coll α) (n : Nat) : Option (Bool × Bool × Coll α × Nat) :=
  let rel := vars.filter (· ∈ s.kn)
  iterLoop g s.kn rel (rel ++ (add.filter (· ∉ vars)).filter (· ∈ s.kn)) max F 0 s.fs c n

/-- iteration.go:91-114: the loop for the split variables; `none` inside: left with `return` -/
def splitLoop (g : Cfg α) (F : Nat) (s : St α) (d : Nat) : Nat → List α → Coll α → Nat → Option (Option (List α) × Coll α × Nat)
  | 0, _, _, _ => none
  | k + 1, sv, c, n =>
    match iterate g F s sv [] (g.maxSplit d) c n with
    | none => none
    | some (_, false, c, n) => some (none, c.rollback, n + 1)
    | some (true, true, c, n) => some (some sv, c, n)
    | some (false, true, c, n) =>
      if g.go n then splitLoop g F s d k (g.reduce sv d) c.rollback (n + 1) else some (none, c.rollback, n + 1)

/-- iteration.go:129-141: the loop over the split assignments; `rec` is the recursive call, whose state is not looked at -/
def recLoop (g : Cfg α) (rec : List (Lit α) → St α → Coll α → Nat → Option (Bool × St α × Coll α × Nat)) (sm : List (Lit α)) :
    List (List (Lit α)) → St α → Coll α → Nat → Option (Bool × St α × Coll α × Nat)
  | [], s, c, n => some (true, s, c, n)
  | a :: as, s, c, n =>
    match rec (a ++ sm) s c n with
    | none => none
    | some (_, s, c, n) => if g.go n then recLoop g rec sm as s c.commit (n + 1) else some (false, s, c.commit, n + 1)

/-- iteration.go:64-155 `iterRecursive`; result: success, solver, collector. `F` bounds the loops, the first argument the depth of the recursion. -/
def iterRec (g : Cfg α) (F : Nat) (vars add : List α) : Nat → List (Lit α) → List α → Nat → St α → Coll α → Nat → Option (Bool × St α × Coll α × Nat)
  | 0, _, _, _, _, _, _ => none
  | k + 1, sm, sv, d, s, c, n =>
    let s1 := s.add sm
    match iterate g F s1 vars add (g.maxIter d) c n with
    | none => none
    | some (_, false, c, n) => some (false, s1, c.commit, n + 1)
    | some (true, true, c, n) => some (g.go n, s, c.commit, n + 1)
    | some (false, true, c, n) =>
      if g.go n then
        match splitLoop g F s1 d F sv c.rollback (n + 1) with
        | none => none
        | some (none, c, n) => some (false, s, c, n)
        | some (some nsv, c, n) =>
          let rem := (vars.filter (· ∉ nsv)).filter (· ∉ sm.map (·.var))
          if g.go n then
            match recLoop g (fun a s c n => iterRec g F vars add k a (g.split rem s1 (d + 1)) (d + 1) s c n) sm c.unc s1 c.rollback (n + 1) with
            | none => none
            | some (ok, _, c, n) => some (ok, s, c, n)
          else some (false, s, c.rollback, n + 1)
      else some (false, s, c.rollback, n + 1)

/-- iteration.go:46-62 `Iterate`: success, models, number of models -/
def run (g : Cfg α) (F k : Nat) (vars add : List α) (s : St α) : Option (Bool × List (List (Lit α)) × Nat) :=
  if g.go 0 then
    match iterRec g F vars add k [] (g.split vars s 0) 0 s (newColl (vars.filter (· ∉ s.kn)) (add.filter (· ∉ s.kn))) 1 with
    | none => none
    | some (ok, _, c, _) => some (ok, c.com, c.cnt)
  else some (false, [], 0)

end Verif.Enum
