import Verif.Factory.Tree
/-!
# `sat/predicate.go` (C44)

Each predicate makes a new solver, adds one formula and asks for satisfiability.  `sat fs` is the answer of the solver holding `fs`; its specification
(`SatSpec`, C18 with C10-C16 for the conversion to clauses) is a hypothesis.
-/
namespace Verif.Predicate
open Verif Verif.Tree
variable {α : Type} [DecidableEq α]

/-- the solver answers rightly -/
def SatSpec (sat : List (Fm α) → Bool) : Prop := ∀ fs, sat fs = true ↔ ∃ v, ∀ f ∈ fs, f.eval v = true

/-- predicate.go:6-10 -/
def isSatisfiable (sat : List (Fm α) → Bool) (f : Fm α) : Bool := sat [f]
/-- predicate.go:13-17 -/
def isTautology (sat : List (Fm α) → Bool) (f : Fm α) : Bool := !sat [tNot f]
/-- predicate.go:20-24 -/
def isContradiction (sat : List (Fm α) → Bool) (f : Fm α) : Bool := !sat [f]
/-- predicate.go:27-31; `cons`: the factory keeps contradictions -/
def implies (cons : Bool) (sat : List (Fm α) → Bool) (f g : Fm α) : Bool := !sat [tAnd cons [f, tNot g]]
/-- predicate.go:34-38 -/
def isEquivalent (cons : Bool) (sat : List (Fm α) → Bool) (f g : Fm α) : Bool :=
  !sat [tOr cons [tAnd cons [f, tNot g], tAnd cons [g, tNot f]]]

omit [DecidableEq α] in
theorem not_sat {sat : List (Fm α) → Bool} (h : SatSpec sat) (f : Fm α) : (!sat [f]) = true ↔ ∀ v, f.eval v = false := by
  rw [Bool.not_eq_true', ← Bool.not_eq_true, h]
  simp

/-- **C44**: all five predicates answer according to the truth tables. -/
theorem C44_predicates_partial {sat : List (Fm α) → Bool} (h : SatSpec sat) (cons : Bool) (f g : Fm α) :
    (isSatisfiable sat f = true ↔ ∃ v, f.eval v = true) ∧
    (isTautology sat f = true ↔ ∀ v, f.eval v = true) ∧
    (isContradiction sat f = true ↔ ∀ v, f.eval v = false) ∧
    (implies cons sat f g = true ↔ ∀ v, f.eval v = true → g.eval v = true) ∧
    (isEquivalent cons sat f g = true ↔ ∀ v, f.eval v = g.eval v) := by
  refine ⟨?_, ?_, ?_, ?_, ?_⟩
  · rw [isSatisfiable, h]; simp
  · rw [isTautology, not_sat h]; simp
  · rw [isContradiction, not_sat h]
  · rw [implies, not_sat h]
    refine forall_congr' fun v => ?_
    cases h1 : f.eval v <;> cases h2 : g.eval v <;> simp [h1, h2]
  · rw [isEquivalent, not_sat h]
    refine forall_congr' fun v => ?_
    cases h1 : f.eval v <;> cases h2 : g.eval v <;> simp [h1, h2]

/-! ### a case: the specification is met by truth tables -/
private def tt : List (Fm Unit) → Bool := fun fs => fs.all (·.eval fun _ => true) || fs.all (·.eval fun _ => false)
private theorem tt_ok : SatSpec tt := by
  intro fs
  simp only [tt, Bool.or_eq_true, List.all_eq_true]
  constructor
  · rintro (h | h)
    · exact ⟨_, h⟩
    · exact ⟨_, h⟩
  · rintro ⟨v, hv⟩
    cases h : v () with
    | true => left; have : v = fun _ => true := funext fun _ => h
              rw [← this]; exact hv
    | false => right; have : v = fun _ => false := funext fun _ => h
               rw [← this]; exact hv
example : isTautology tt (.or [.lit ⟨(), true⟩, .lit ⟨(), false⟩]) = true ∧ implies false tt (.lit ⟨(), true⟩) (.lit ⟨(), false⟩) = false ∧
    isEquivalent false tt (.impl (.lit ⟨(), true⟩) .fls) (.lit ⟨(), false⟩) = true := by decide +kernel

end Verif.Predicate
