import Verif.Parser.Handles
import Verif.Factory.Props
/-! # C33 — printing and parsing are inverse -/
namespace Verif.Parser
open Verif Verif.Tree Verif.Factory

/-! ## equivalence -/

/-- C33, first half: parsing the printed form of a formula gives an equivalent formula, whatever the nesting.  `_partial`: in constraints, no variable may be named by a number
(`C33_numeric_false`, `C33_numeric_panics`); the tree is one a factory can hold (at least two operands, the last one not the constant `false`). -/
theorem C33_equivalent_partial (cons : Bool) {f : Fm String} (h : printable f = true) : ∃ g, parse cons (sprint f) = .ok g ∧ ∀ v, g.eval v = f.eval v :=
  ⟨_, parse_sprint cons h, fun v => eval_rebuild cons v f⟩

/-- … in particular for every formula of every factory, over the names of the grammar -/
theorem C33_factory_partial {c c' : Bool} {s : Fac} (r : Reach c s) {f : Fm String} {h : H} (d : Den s.nodes f h) (hn : namesOk f = true) :
    ∃ g, parse c' (sprint f) = .ok g ∧ ∀ v, g.eval v = f.eval v := C33_equivalent_partial c' (printable_den r f d hn)

/-! ## identity -/

/-- C33, second half: a formula of the factory is returned identically.  `_partial`: besides the names, no constraint `… < 0` built as a cardinality constraint (`C33_lt0_false`), and no
`Minterm`/`Clause` with equal or complementary literals -/
theorem C33_identical_partial {c : Bool} {s : Fac} (r : PReach c s) {f : Fm String} {h : H} (d : Den s.nodes f h) (hn : namesOk f = true) (h0 : noLt0 f = true) :
    parse c (sprint f) = .ok f := by
  rw [parse_sprint c (printable_den r.reach f d hn), rebuild_den r f d h0]

/-- … so the handle the parser returns, in whatever state of the factory it ends, is the handle of the formula printed -/
theorem C33_handle_partial {c : Bool} {s s' : Fac} (r : PReach c s) (l : Later s s') (r' : Reach c s') {f g : Fm String} {h h' : H} (d : Den s.nodes f h) (hn : namesOk f = true)
    (h0 : noLt0 f = true) (hp : parse c (sprint f) = .ok g) (d' : Den s'.nodes g h') : h' = h := by
  rw [C33_identical_partial r d hn h0] at hp
  cases hp
  exact C01_handle_unique r' d' (C03_immutable r.reach l d).1

/-- … and different formulas are printed differently -/
theorem sprint_injective_partial {c : Bool} {s : Fac} (r : PReach c s) {f g : Fm String} {h k : H} (df : Den s.nodes f h) (dg : Den s.nodes g k) (hf : namesOk f = true ∧ noLt0 f = true)
    (hg : namesOk g = true ∧ noLt0 g = true) (e : sprint f = sprint g) : f = g := by
  have h1 := C33_identical_partial r df hf.1 hf.2
  rw [e, C33_identical_partial r dg hg.1 hg.2] at h1
  cases h1; rfl

/-! ## examples -/

def exF : Fm String :=
  .equiv (.impl (.and [.lit ⟨"A", true⟩, .or [.lit ⟨"7", true⟩, .lit ⟨"b_2", false⟩]]) (.not (.or [.lit ⟨"A", true⟩, .and [.lit ⟨"@x", true⟩, .lit ⟨"y", true⟩]])))
    (.impl (.impl (.lit ⟨"A", true⟩) (.pbc .ge (-2) [(-3, ⟨"y", false⟩), (1, ⟨"A", true⟩)])) (.cc .le 1 ["A", "y"]))

example : printable exF = true := by decide +kernel
example : String.ofList (sprint exF) = "A & (7 | ~b_2) => ~(A | @x & y) <=> (A => (-3*~y + A >= -2)) => (A + y <= 1)" := by decide +kernel
example : parse false "A & (7 | ~b_2) => ~(A | @x & y) <=> (A => (-3*~y + A >= -2)) => (A + y <= 1)".toList = .ok exF := by decide +kernel

/-- the hypotheses of `C33_identical_partial` and `C33_handle_partial`: a factory after some calls -/
def exS : Fac := (Factory.step (Factory.step (Factory.step (Factory.init false) (.var "A")).1 (.var "b")).1 (.impl (Factory.step (Factory.init false) (.var "A")).2
  (Factory.step (Factory.step (Factory.init false) (.var "A")).1 (.var "b")).2)).1

theorem exS_reach : PReach false exS :=
  .step (.step (.step .init trivial trivial (by decide +kernel)) trivial trivial (by decide +kernel)) ⟨.inr (.inr (by decide +kernel)), .inr (.inr (by decide +kernel))⟩ trivial (by decide +kernel)

example : ∃ h, Den exS.nodes (.impl (.lit ⟨"A", true⟩) (.lit ⟨"b", true⟩)) h := by
  refine ⟨(Factory.step (Factory.step (Factory.step (Factory.init false) (.var "A")).1 (.var "b")).1 (.impl (Factory.step (Factory.init false) (.var "A")).2
    (Factory.step (Factory.step (Factory.init false) (.var "A")).1 (.var "b")).2)).2, ?_⟩
  simp only [Den]
  exact ⟨(Factory.step (Factory.init false) (.var "A")).2, (Factory.step (Factory.step (Factory.init false) (.var "A")).1 (.var "b")).2, by decide +kernel, by decide +kernel, by decide +kernel⟩

/-! ## where the claim is false -/

/-- the claim is false if a variable of a constraint is named by a number: `3*5 <= 2` is read as five times variable "3" -/
theorem C33_numeric_false : ∃ f g : Fm String, namesOk (.and (f.vars.map fun x => .lit ⟨x, true⟩)) = true ∧ parse false (sprint f) = .ok g ∧ ¬ ∀ v, g.eval v = f.eval v := by
  refine ⟨.pbc .le 2 [(3, ⟨"5", true⟩)], .pbc .le 2 [(5, ⟨"3", true⟩)], by decide +kernel, by decide +kernel, fun h => ?_⟩
  have := h fun x => x == "5"
  simp [Lit.eval, linSum, Cmp.holds] at this

/-- … and with coefficient 1 the parser panics: `5 + x <= 2` -/
theorem C33_numeric_panics : ∃ f : Fm String, namesOk (.and (f.vars.map fun x => .lit ⟨x, true⟩)) = true ∧ parse false (sprint f) = .panic :=
  ⟨.pbc .le 2 [(1, ⟨"5", true⟩), (1, ⟨"x", true⟩)], by decide +kernel, by decide +kernel⟩

/-- the cardinality constraint `CC(LT, 0, x)` comes back as a pseudo-Boolean constraint: not the identical formula -/
theorem C33_lt0_false : ∃ (s : Fac) (f g : Fm String) (h : H), PReach false s ∧ Den s.nodes f h ∧ namesOk f = true ∧ parse false (sprint f) = .ok g ∧ g ≠ f := by
  refine ⟨(Factory.step (Factory.step (Factory.init false) (.var "x")).1 (.cc .lt 0 [(Factory.step (Factory.init false) (.var "x")).2])).1, .cc .lt 0 ["x"], .pbc .lt 0 [(1, ⟨"x", true⟩)],
    (Factory.step (Factory.step (Factory.init false) (.var "x")).1 (.cc .lt 0 [(Factory.step (Factory.init false) (.var "x")).2])).2, ?_, ?_, by decide +kernel, by decide +kernel, by decide +kernel⟩
  · refine .step (.step .init trivial trivial (by decide +kernel)) ?_ trivial (by decide +kernel)
    intro o ho
    simp only [List.mem_singleton] at ho
    subst ho
    exact ⟨"x", by decide +kernel⟩
  · simp only [Den]
    exact ⟨[(Factory.step (Factory.init false) (.var "x")).2], by decide +kernel, by decide +kernel⟩

/-- text after a formula is ignored without an error -/
theorem C33_garbage : parse false "a b ) & c".toList = .ok (.lit ⟨"a", true⟩) := by decide +kernel

end Verif.Parser
