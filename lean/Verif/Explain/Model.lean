import Verif.Util
import Verif.Spec.Formula
import Verif.Factory.Tree
/-!
# Model of `explanation/mus/mus.go` and `explanation/smus/smus.go`

The SAT solver enters as a family of answers: `call n fs` is the answer of the `n`-th call on a solver that holds the formulas `fs`
(`none`: the handler cancelled that call).  Its specification (C18) is a hypothesis of the theorems.  Propositions are pointers to formulas.
-/
namespace Verif.Explain
open Verif Verif.Tree
variable {α : Type}

/-- formula/proposition.go: a proposition is a pointer, comparison of propositions is comparison of pointers -/
structure Prp (α : Type) where
  ptr : Nat
  fm : Fm α

/-- how a computation ends -/
inductive Res (β : Type)
  | ok (b : β)        -- a result, `handler.Success()`
  | error             -- an error value
  | canceled          -- a state without success
  | panic
  | fuel              -- the model ran out of fuel

/-- answers of the solver calls, in the order of the calls -/
abbrev Oracle (α : Type) := Nat → List (Fm α) → Option Bool

/-! ## insertion-based -/

/-- mus.go:64-68, one round of the loop `for i, p := range currentFormula`, which shortens `currentFormula` while ranging over the
underlying array.  State: the array and the current length of `currentFormula`.  `none`: slice bounds out of range. -/
def removeStep (t : Prp α) (st : List (Prp α) × Nat) (i : Nat) : Option (List (Prp α) × Nat) :=
  match st.1[i]? with
  | none => none
  | some p =>
    if p.ptr = t.ptr then
      if i + 1 ≤ st.2 then some (st.1.take i ++ (st.1.take st.2).drop (i + 1) ++ st.1.drop (st.2 - 1), st.2 - 1) else none
    else some st

/-- mus.go:64-68 -/
def removeTransition (t : Prp α) (cur : List (Prp α)) : Option (List (Prp α)) :=
  (foldOpt (removeStep t) (cur, cur.length) (List.range cur.length)).map fun st => st.1.take st.2

/-- what the inner loop leaves: number of solver calls so far, `currentSubset`, `transitionProposition` -/
abbrev Inner (α : Type) := Nat × List (Prp α) × Option (Prp α)

/-- mus.go:44-60, the inner loop; `rest` is the part of `currentFormula` not yet taken, from the back.  The solver holds `mus` and `subset`. -/
def inner (call : Oracle α) (mus : List (Prp α)) : List (Prp α) → Inner α → Res (Inner α)
  | rest, (n, subset, trans) =>
    match call n ((mus ++ subset).map (·.fm)) with
    | none => .canceled
    | some false => .ok (n + 1, subset, trans)
    | some true =>
      match rest with
      | [] => .error
      | p :: rest => inner call mus rest (n + 1, subset ++ [p], some p)

/-- mus.go:38-72, the outer loop: number of calls so far, `currentFormula`, `mus` -/
def insLoop (call : Oracle α) : Nat → Nat → List (Prp α) → List (Prp α) → Res (List (Prp α))
  | _, _, [], mus => .ok mus
  | 0, _, _ :: _, _ => .fuel
  | k + 1, n, p :: cur, mus =>
    match inner call mus (p :: cur).reverse (n, [], none) with
    | .ok (n', subset, trans) =>
      match trans with
      | none => insLoop call k n' subset mus
      | some t =>
        match removeTransition t subset with
        | none => .panic
        | some cur' => insLoop call k n' cur' (mus ++ [t])
    | .error => .error
    | .canceled => .canceled
    | .panic => .panic
    | .fuel => .fuel

/-- mus.go:29-74 `ComputeInsertionBasedWithHandler`; `start` is the answer of the handler to the start event.  At most `len + 1` rounds are needed. -/
def insertion (start : Bool) (call : Oracle α) (ps : List (Prp α)) : Res (List (Prp α)) :=
  if start then insLoop call (ps.length + 1) 0 ps [] else .canceled

/-! ## deletion-based -/

/-- the solver seen from outside: formulas on it, valid saved states (id and number of formulas), next id.
`sat/core.go:531-568` (`saveState`, `loadState`); that the core solver behaves like this is C20. -/
structure Sol (α : Type) where
  content : List (Fm α)
  valid : List (Nat × Nat)
  next : Nat

def Sol.new : Sol α := ⟨[], [], 0⟩
def Sol.add (s : Sol α) (f : Fm α) : Sol α := { s with content := s.content ++ [f] }
/-- core.go:531-552 `saveState` -/
def Sol.save (s : Sol α) : Sol α × (Nat × Nat) :=
  let st := (s.next, s.content.length)
  ({ s with valid := s.valid ++ [st], next := s.next + 1 }, st)
/-- core.go:554-568 `loadState`; `none` is the error for a state that is not valid any more -/
def Sol.load (s : Sol α) (st : Nat × Nat) : Option (Sol α) :=
  match s.valid.findIdx? (fun v => v.1 == st.1) with
  | none => none
  | some i => some { s with valid := s.valid.take (i + 1), content := s.content.take st.2 }

/-- mus.go:95-98 -/
def delInit : List (Prp α) → Sol α → List (Nat × Nat) → Sol α × List (Nat × Nat)
  | [], s, sts => (s, sts)
  | p :: ps, s, sts => let r := s.save; delInit ps (r.1.add p.fm) (sts ++ [r.2])

/-- mus.go:106-122, the loop; the list holds the saved states and the propositions from the back -/
def delLoop (call : Oracle α) : List ((Nat × Nat) × Prp α) → Nat → Sol α → List (Prp α) → Res (List (Prp α))
  | [], _, _, mus => .ok mus
  | (st, p) :: rest, n, s, mus =>
    match s.load st with
    | none => .error
    | some s =>
      let s := mus.foldl (fun s q => s.add q.fm) s
      match call n s.content with
      | none => .canceled
      | some true => delLoop call rest (n + 1) s (mus ++ [p])
      | some false => delLoop call rest (n + 1) s mus

/-- mus.go:87-124 `ComputeDeletionBasedWithHandler` -/
def deletion (start : Bool) (call : Oracle α) (ps : List (Prp α)) : Res (List (Prp α)) :=
  if start then
    let r := delInit ps Sol.new []
    match call 0 r.1.content with
    | none => .canceled
    | some true => .error
    | some false => delLoop call (r.2.zip ps).reverse 1 r.1 []
  else .canceled

end Verif.Explain
