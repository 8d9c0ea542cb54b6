import Verif.Factory.FuncProps
/-!
# Terms and constraints in formulas (C75)

Model of /repo/normalform/term.go and /repo/encoding/contains_pbc.go on formulas as trees.
-/
namespace Verif.Terms
open Verif Verif.Func
variable {α : Type}

/-! ## model -/

/-- term.go:35-43 `onlyLiterals` -/
def onlyLiterals : List (Fm α) → Bool
  | [] => true
  | .lit _ :: fs => onlyLiterals fs
  | _ :: _ => false

/-- term.go:20-33 `testTerm` -/
def testTerm (minterm : Bool) : Fm α → Bool
  | .tru => true
  | .fls => true
  | .lit _ => true
  | .or fs => !minterm && onlyLiterals fs
  | .and fs => minterm && onlyLiterals fs
  | _ => false

/-- term.go:10-12 `IsMinterm` -/
def isMinterm (f : Fm α) : Bool := testTerm true f

/-- term.go:16-18 `IsMaxterm` -/
def isMaxterm (f : Fm α) : Bool := testTerm false f

mutual
/-- contains_pbc.go:10-33 `ContainsPBC` -/
def containsPBC : Fm α → Bool
  | .fls => false
  | .tru => false
  | .lit _ => false
  | .and fs => containsPBCL fs
  | .or fs => containsPBCL fs
  | .not f => containsPBC f
  | .impl f g => containsPBC f || containsPBC g
  | .equiv f g => containsPBC f || containsPBC g
  | .cc _ _ _ => true
  | .pbc _ _ _ => true
/-- contains_pbc.go:16-20, the loop -/
def containsPBCL : List (Fm α) → Bool
  | [] => false
  | f :: fs => if containsPBC f then true else containsPBCL fs
end

/-! ## specification -/

/-- a cardinality or pseudo-Boolean constraint -/
def Constraint (f : Fm α) : Prop := (∃ c k xs, f = .cc c k xs) ∨ ∃ c k ts, f = .pbc c k ts

/-! ## theorems -/

theorem onlyLiterals_iff : ∀ {fs : List (Fm α)}, onlyLiterals fs = true ↔ ∃ ls : List (Lit α), fs = ls.map .lit
  | [] => ⟨fun _ => ⟨[], rfl⟩, fun _ => rfl⟩
  | f :: fs => by
    constructor
    · intro h
      cases f with
      | lit l =>
        rw [onlyLiterals] at h
        obtain ⟨ls, rfl⟩ := onlyLiterals_iff.1 h
        exact ⟨l :: ls, rfl⟩
      | _ => simp [onlyLiterals] at h
    · rintro ⟨ls, h⟩
      cases ls with
      | nil => cases h
      | cons l ls =>
        obtain ⟨rfl, rfl⟩ := List.cons.inj h
        rw [onlyLiterals]
        exact onlyLiterals_iff.2 ⟨ls, rfl⟩

/-- C75: the minterms are the constants, the literals and the conjunctions of literals -/
theorem C75_minterm (f : Fm α) : isMinterm f = true ↔ f = .tru ∨ f = .fls ∨ (∃ l, f = .lit l) ∨ ∃ ls : List (Lit α), f = .and (ls.map .lit) := by
  unfold isMinterm
  cases f <;> simp [testTerm, onlyLiterals_iff]

/-- C75: the maxterms are the constants, the literals and the disjunctions of literals -/
theorem C75_maxterm (f : Fm α) : isMaxterm f = true ↔ f = .tru ∨ f = .fls ∨ (∃ l, f = .lit l) ∨ ∃ ls : List (Lit α), f = .or (ls.map .lit) := by
  unfold isMaxterm
  cases f <;> simp [testTerm, onlyLiterals_iff]

theorem containsPBCL_iff : ∀ {fs : List (Fm α)}, containsPBCL fs = true ↔ ∃ f ∈ fs, containsPBC f = true
  | [] => by simp [containsPBCL]
  | f :: fs => by
    rw [containsPBCL]
    cases h : containsPBC f <;> simp [h, containsPBCL_iff (fs := fs)]

/-- C75: a formula contains a constraint iff one of its subformulas is one -/
theorem C75_contains [DecidableEq α] (f : Fm α) : containsPBC f = true ↔ ∃ h ∈ allNodes f, Constraint h := by
  have nary : ∀ {fs : List (Fm α)}, (∀ f ∈ fs, (containsPBC f = true ↔ ∃ h ∈ allNodes f, Constraint h)) →
      (containsPBCL fs = true ↔ ∃ h ∈ fs.flatMap allNodes, Constraint h) := fun ih => by
    rw [containsPBCL_iff]
    constructor
    · rintro ⟨f, hf, h⟩
      obtain ⟨g, hg, hc⟩ := (ih f hf).1 h
      exact ⟨g, List.mem_flatMap.2 ⟨f, hf, hg⟩, hc⟩
    · rintro ⟨g, hg, hc⟩
      obtain ⟨f, hf, hg⟩ := List.mem_flatMap.1 hg
      exact ⟨f, hf, (ih f hf).2 ⟨g, hg, hc⟩⟩
  have step : ∀ {f : Fm α} {l : List (Fm α)}, ¬ Constraint f → ((∃ h ∈ f :: l, Constraint h) ↔ ∃ h ∈ l, Constraint h) := fun hf => by
    simp only [List.mem_cons, exists_eq_or_imp]
    exact ⟨fun h => h.resolve_left hf, .inr⟩
  have app : ∀ {l m : List (Fm α)}, (∃ h ∈ l ++ m, Constraint h) ↔ (∃ h ∈ l, Constraint h) ∨ ∃ h ∈ m, Constraint h := by
    intro l m
    simp only [List.mem_append, or_and_right, exists_or]
  induction f using Fm.ind with
  | hf => simp [containsPBC, allNodes, Constraint]
  | ht => simp [containsPBC, allNodes, Constraint]
  | hl l => simp [containsPBC, allNodes, Constraint]
  | hn f ih => rw [containsPBC, allNodes, step (by simp [Constraint])]; exact ih
  | ha fs ih => rw [containsPBC, allNodes, step (by simp [Constraint]), allNodesL_eq]; exact nary ih
  | ho fs ih => rw [containsPBC, allNodes, step (by simp [Constraint]), allNodesL_eq]; exact nary ih
  | hi a b iha ihb => rw [containsPBC, allNodes, step (by simp [Constraint]), app, Bool.or_eq_true]; exact or_congr iha ihb
  | he a b iha ihb => rw [containsPBC, allNodes, step (by simp [Constraint]), app, Bool.or_eq_true]; exact or_congr iha ihb
  | hc c k xs =>
    rw [containsPBC]
    exact ⟨fun _ => ⟨_, by rw [allNodes]; exact List.mem_cons_self, .inl ⟨c, k, xs, rfl⟩⟩, fun _ => rfl⟩
  | hp c k ts =>
    rw [containsPBC]
    exact ⟨fun _ => ⟨_, by rw [allNodes]; exact List.mem_cons_self, .inr ⟨c, k, ts, rfl⟩⟩, fun _ => rfl⟩

/-! ### Examples -/

example : isMinterm (.and [.lit ⟨1, true⟩, .lit ⟨2, false⟩] : Fm Nat) = true ∧ isMaxterm (.and [.lit ⟨1, true⟩, .lit ⟨2, false⟩] : Fm Nat) = false ∧
    isMinterm (.and [.lit ⟨1, true⟩, .or [.lit ⟨2, false⟩, .lit ⟨3, true⟩]] : Fm Nat) = false := by decide

example : containsPBC (.impl (.lit ⟨1, true⟩) (.not (.or [.lit ⟨2, true⟩, .cc .le 1 [1, 2]])) : Fm Nat) = true ∧ containsPBC (.equiv .tru (.lit ⟨1, true⟩) : Fm Nat) = false := by
  decide +kernel

end Verif.Terms
