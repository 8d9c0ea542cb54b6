import Verif.Assignment.Lemmas
/-!
# C06, C07: evaluation, restriction and constant detection

`v` ranges over all total valuations; an assignment is given by the list of literals it was built from (`assignment.New`, equivalently a
sequence of successful `AddLit` calls), a mapping by its key/value pairs.
-/
namespace Verif.Assignment
open Verif Verif.Tree
variable {α : Type} [DecidableEq α]

/-- `New` fails exactly if the literals contain a complementary pair (assignment.go:21-31, 82-101) -/
theorem C06_new_error (ls : List (Lit α)) : new ls = none ↔ ∃ x, (⟨x, true⟩ : Lit α) ∈ ls ∧ ⟨x, false⟩ ∈ ls := by
  constructor
  · intro h
    obtain ⟨x, h1, h2⟩ := addLits_none (a := empty) h
    simp [empty] at h1 h2
    exact ⟨x, h1, h2⟩
  · rintro ⟨x, h1, h2⟩
    cases e : new ls with
    | none => rfl
    | some a =>
      have := addLits_spec (a := empty) e
      exact absurd ((this.2 x).2 (.inr h2)) (new_disj e x ((this.1 x).2 (.inr h1)))

/-- an assignment holds exactly the literals it was built from -/
theorem C06_new_content {ls : List (Lit α)} {a : Asg α} (h : new ls = some a) (x : α) :
    (x ∈ a.pos ↔ ⟨x, true⟩ ∈ ls) ∧ (x ∈ a.neg ↔ ⟨x, false⟩ ∈ ls) := by
  have := addLits_spec (a := empty) h
  constructor
  · rw [this.1 x]; simp [empty]
  · rw [this.2 x]; simp [empty]

/-- `Evaluate` is the standard semantics under the valuation which makes exactly the positively assigned variables true -/
theorem C06_evaluate {ls : List (Lit α)} {a : Asg α} (h : new ls = some a) (f : Fm α) :
    evaluate a f = f.eval (fun x => decide ((⟨x, true⟩ : Lit α) ∈ ls)) := by
  rw [evaluate_eq (new_disj h)]
  exact Fm.eval_congr _ fun x _ => by simp [(C06_new_content h x).1]

/-- for an assignment which covers all variables `Evaluate` is the truth value under any valuation satisfying its literals -/
theorem C06_evaluate_total {ls : List (Lit α)} {a : Asg α} (h : new ls = some a) (f : Fm α)
    (ht : ∀ x ∈ f.vars, ∃ p, (⟨x, p⟩ : Lit α) ∈ ls) (v : α → Bool) (hv : ∀ l ∈ ls, l.eval v = true) : evaluate a f = f.eval v := by
  rw [C06_evaluate h]
  refine Fm.eval_congr _ fun x hx => ?_
  obtain ⟨p, hp⟩ := ht x hx
  have h1 := hv _ hp
  cases p with
  | true => simp [Lit.eval] at h1; simp [hp, h1]
  | false =>
    simp [Lit.eval] at h1
    have : (⟨x, true⟩ : Lit α) ∉ ls := fun h' => by have := hv _ h'; simp [Lit.eval, h1] at this
    simp [this, h1]

theorem compl_of_lits {ls : List (Lit α)} {a : Asg α} (h : new ls = some a) {v : α → Bool} (hv : ∀ l ∈ ls, l.eval v = true) : Compl a v :=
  ⟨fun x hx => by have := hv _ ((C06_new_content h x).1.1 hx); simpa [Lit.eval] using this,
   fun x hx => by have := hv _ ((C06_new_content h x).2.1 hx); simpa [Lit.eval] using this⟩

/-- `Restrict` agrees with the formula on every valuation which satisfies the assignment -/
theorem C06_restrict {ls : List (Lit α)} {a : Asg α} (h : new ls = some a) (cons : Bool) (f : Fm α) (v : α → Bool)
    (hv : ∀ l ∈ ls, l.eval v = true) : (restrict cons a f).eval v = f.eval v :=
  restrict_eval (compl_of_lits h hv) f

/-- `Restrict` introduces no variable and removes all assigned ones -/
theorem C06_restrict_vars {ls : List (Lit α)} {a : Asg α} (h : new ls = some a) (cons : Bool) (f : Fm α) :
    ∀ x ∈ (restrict cons a f).vars, x ∈ f.vars ∧ ∀ l ∈ ls, l.var ≠ x := by
  intro x hx
  have := restrict_vars (new_disj h) f x hx
  refine ⟨this.1, ?_⟩
  rintro ⟨y, p⟩ hl rfl
  refine this.2 ?_
  unfold asgVars
  cases p with
  | true => exact List.mem_append_left _ ((C06_new_content h _).1.2 hl)
  | false => exact List.mem_append_right _ ((C06_new_content h _).2.2 hl)

/-- `Restrict` by a total assignment yields the constant that `Evaluate` returns -/
theorem C06_restrict_total {ls : List (Lit α)} {a : Asg α} (h : new ls = some a) (cons : Bool) (f : Fm α)
    (ht : ∀ x ∈ f.vars, ∃ p, (⟨x, p⟩ : Lit α) ∈ ls) : restrict cons a f = if evaluate a f then .tru else .fls := by
  have hc : isConst (restrict cons a f) = true := by
    refine restrict_const (new_disj h) f fun x hx => ?_
    obtain ⟨p, hp⟩ := ht x hx
    unfold asgVars
    cases p with
    | true => exact List.mem_append_left _ ((C06_new_content h _).1.2 hp)
    | false => exact List.mem_append_right _ ((C06_new_content h _).2.2 hp)
  have he : (restrict cons a f).eval _ = _ := restrict_eval (compl_of_disj (new_disj h)) f
  rw [evaluate_eq (new_disj h), ← he]
  rcases isConst_iff.1 hc with h1 | h1 <;> simp [h1]

/-- a positive answer of `EvaluatesToTrue` holds for every completion of the (partial) assignment -/
theorem C07_true_sound (cons : Bool) (m : List (α × Bool)) (f : Fm α) (h : evaluatesToTrue cons m f = true)
    (v : α → Bool) (hv : ∀ e ∈ m, v e.1 = e.2) : f.eval v = true := by
  have g := test_good (c := ⟨cons, true, m⟩) hv f true
  simp only [evaluatesToTrue, decide_eq_true_eq] at h
  exact g.2.1 rfl (by rw [h]; simp)

/-- a positive answer of `EvaluatesToFalse` holds for every completion of the (partial) assignment -/
theorem C07_false_sound (cons : Bool) (m : List (α × Bool)) (f : Fm α) (h : evaluatesToFalse cons m f = true)
    (v : α → Bool) (hv : ∀ e ∈ m, v e.1 = e.2) : f.eval v = false := by
  have g := test_good (c := ⟨cons, false, m⟩) hv f true
  simp only [evaluatesToFalse, decide_eq_true_eq] at h
  cases hf : f.eval v with
  | false => rfl
  | true => have := g.2.2 rfl hf; rw [h] at this; simp at this

/-- on assignments of all variables of the formula both functions decide the truth value -/
theorem C07_total (cons : Bool) (m : List (α × Bool)) (f : Fm α) (v : α → Bool) (hv : ∀ e ∈ m, v e.1 = e.2)
    (ht : ∀ x ∈ f.vars, ∃ b, (x, b) ∈ m) : evaluatesToTrue cons m f = f.eval v ∧ evaluatesToFalse cons m f = !f.eval v := by
  constructor
  · simp only [evaluatesToTrue, test, (test2_total (c := ⟨cons, true, m⟩) hv f ht).1]
    cases f.eval v <;> simp [tConst]
  · simp only [evaluatesToFalse, test, (test2_total (c := ⟨cons, false, m⟩) hv f ht).1]
    cases f.eval v <;> simp [tConst]

/-! concrete cases -/

/-- `(x0 & ~x1) | 2*x2 - 3*~x3 >= 1`  -/
def exF : Fm Nat := .or [.and [.lit ⟨0, true⟩, .lit ⟨1, false⟩], .pbc .ge 1 [(2, ⟨2, true⟩), (-3, ⟨3, false⟩)]]

/-- a partial assignment, its restriction and the decision functions on it -/
example : ∃ a, new [(⟨0, true⟩ : Lit Nat), ⟨3, false⟩] = some a ∧ evaluate a exF = true ∧
    restrict false a exF = .lit ⟨1, false⟩ := ⟨_, rfl, by decide, by decide⟩
example : new [(⟨0, true⟩ : Lit Nat), ⟨0, false⟩] = none := by decide
example : evaluatesToTrue false [(0, true), (1, false)] exF = true := by decide
example : evaluatesToFalse false [(0, false), (3, false)] exF = true := by decide
/-- incomplete on partial assignments: a tautology which is not recognised -/
example : evaluatesToTrue false [] (.or [.and [.lit ⟨0, true⟩, .lit ⟨1, true⟩], .lit ⟨0, false⟩, .lit ⟨1, false⟩] : Fm Nat) = false := by decide
example : evaluatesToTrue false [(0, true), (1, false), (2, false), (3, false)] exF = true ∧
    evaluatesToFalse false [(0, true), (1, false), (2, false), (3, false)] exF = false := by decide

end Verif.Assignment
