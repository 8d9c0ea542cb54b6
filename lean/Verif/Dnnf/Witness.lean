import Verif.Dnnf.CompileProps
import Verif.Simpl.Props
/-!
# C26 is false of the compiler

Three formulas whose compiled form has a wrong count.  All three are in conjunctive normal form with an empty backbone.
-/
namespace Verif.Dnnf
open Verif Verif.Sat Verif.Func

/-- heuristic choices; `b`: the learnt clause is minimised with the binary clauses -/
def wChoice (b : Bool) : Choice :=
  { resume := true, restart := false, reduce := false, del := fun _ => false, binMin := b, binOrd := ⟨id, fun l => .refl l⟩, pick := ⟨id, fun l => .refl l⟩, sign := false }
/-- clauses in the notation of DIMACS -/
def wCnf (c : List (List Int)) : Fm Nat := .and (c.map fun k => .or (k.map fun x => .lit ⟨x.natAbs, x > 0⟩))
/-- a literal in the notation of DIMACS -/
def wLit (x : Int) : Fm Nat := .lit ⟨x.natAbs, x > 0⟩

/-- no literal over the variables holds in all models -/
def NoBackbone (f : Fm Nat) (vs : List Nat) : Prop := ∀ x ∈ vs, (∃ v, f.eval v = true ∧ v x = true) ∧ ∃ v, f.eval v = true ∧ v x = false

theorem noBackbone_of {f : Fm Nat} {vs : List Nat} (ms : List (List Nat)) (h1 : (ms.all fun m => f.eval fun x => m.contains x) = true)
    (h2 : (vs.all fun x => (ms.any fun m => m.contains x) && ms.any fun m => !m.contains x) = true) : NoBackbone f vs := by
  intro x hx
  rw [List.all_eq_true] at h1 h2
  have := h2 x hx
  rw [Bool.and_eq_true, List.any_eq_true, List.any_eq_true] at this
  obtain ⟨⟨m, hm, h3⟩, n, hn, h4⟩ := this
  exact ⟨⟨_, h1 m hm, h3⟩, _, h1 n hn, by simpa using h4⟩

/-! ## A: deterministic and decomposable, but models are lost -/

def wA : Fm Nat := wCnf [[-3, -1, -4], [-1, -3, 4], [1, -5, -6], [-6, -2], [2, 3], [2, -5, -6], [3, 4, 6], [1, -2], [-2, 4, 5]]
/-- the compiled formula -/
def gA : Fm Nat := .or [.and [wLit 2, wLit (-3), wLit 4, wLit (-6), wLit 1],
  .and [wLit (-2), wLit 3, .or [.and [wLit 5, wLit (-6), wLit (-1)], .and [wLit (-5), wLit (-1), wLit (-6)]]]]

theorem compileA (b : Bool) : compileCnf false (fun _ => wChoice b) 200 (some ([], [])) true wA = some gA := by cases b <;> decide +kernel

theorem ddnnfA : DDnnf gA := by
  refine ddnnf_of ?_ ?_
  · obtain ⟨f, hf⟩ : ∃ f, simplifyCnf false (some ([], [])) wA = f := ⟨_, rfl⟩
    have h := compileA false
    rw [compileCnf, hf] at h
    exact C26_deterministic _ _ _ _ (by rw [← hf]; decide +kernel) h
  · have l : ∀ x, Decomposable (wLit x) := fun x => .lit _
    refine .or ?_
    intro f hf
    simp only [List.mem_cons, List.not_mem_nil, or_false] at hf
    rcases hf with rfl | rfl
    · exact .and (by simp [l]) (by simp [wLit, Fm.vars])
    · refine .and ?_ (by simp [wLit, Fm.vars, Fm.varsL])
      simp only [List.mem_cons, List.not_mem_nil, or_false, forall_eq_or_imp, forall_eq, l, true_and]
      refine .or ?_
      simp only [List.mem_cons, List.not_mem_nil, or_false, forall_eq_or_imp, forall_eq]
      exact ⟨.and (by simp [l]) (by simp [wLit, Fm.vars]), .and (by simp [l]) (by simp [wLit, Fm.vars])⟩

/-- **C26 is false.** The compiled formula is deterministic and decomposable, but has 6 models; the formula has 8.  The compiled formula lost the models in which variable 6 is true: the literal
¬6 belongs to the sibling of the node for which it was recorded (dtree.go:152-153 share one set between the parent and its left child) and comes back from the cache. -/
theorem C26_false : Spec.isCNF wA = true ∧ NoBackbone wA [1, 2, 3, 4, 5, 6] ∧ (∀ b, compileCnf false (fun _ => wChoice b) 200 (some ([], [])) true wA = some gA) ∧ DDnnf gA ∧
    (modelCount [] [1, 2, 3, 4, 5, 6] gA).1 = some 6 ∧ count [1, 2, 3, 4, 5, 6] (fun v => wA.eval v) = 8 := by
  refine ⟨by decide +kernel, noBackbone_of [[1, 2, 4], [1, 2, 4, 5], [3], [3, 4], [3, 5], [3, 6], [3, 4, 6]] (by decide +kernel) (by decide +kernel), compileA, ddnnfA, by decide +kernel,
    by decide +kernel⟩

/-- one of the lost models -/
theorem C26_lost : ∃ v, wA.eval v = true ∧ gA.eval v = false := ⟨fun x => x == 3 || x == 6, by decide +kernel, by decide +kernel⟩

/-! ## B: literals of an earlier implication at the same level -/

def wB : Fm Nat := wCnf [[-3, -1, 4, 5], [6, 3], [1, -7, -2], [-2, -4, -3], [-6, -5, -7], [6, -7, -2], [-1, 6, -5], [2, -4]]

/-- A second formula: 27 instead of 29. -/
theorem C26_false2 : Spec.isCNF wB = true ∧ NoBackbone wB [1, 2, 3, 4, 5, 6, 7] ∧
    (∀ b, ((compileCnf false (fun _ => wChoice b) 200 (some ([], [])) true wB).map fun g => (modelCount [] [1, 2, 3, 4, 5, 6, 7] g).1) = some (some 27)) ∧
    count [1, 2, 3, 4, 5, 6, 7] (fun v => wB.eval v) = 29 := by
  refine ⟨by decide +kernel, noBackbone_of [[3], [6], [3, 6], [1, 2, 5, 6], [1, 2, 4, 6, 7]] (by decide +kernel) (by decide +kernel), fun b => by cases b <;> decide +kernel, by decide +kernel⟩

/-! ## C: equivalent, but not decomposable -/

def wC : Fm Nat := wCnf [[-1, -4], [-1, 2], [4, -3], [1, 2, 3], [-6, 4, 5], [6, 5], [-6, -3, 2]]
/-- the compiled formula -/
def gC : Fm Nat := .or [.and [wLit 4, wLit (-1), .or [.and [wLit 6, wLit 2], .and [wLit (-6), wLit 5, .or [wLit 2, .and [wLit (-2), wLit 3]]]]],
  .and [wLit (-4), wLit (-3), .or [.and [wLit 6, wLit 5, wLit 2], .and [wLit (-6), wLit 5]], .or [.and [wLit 1, wLit 2], .and [wLit (-1), wLit 2]]]]

/-- **Compiled formulas need not be decomposable.** The compiled formula has the models of the formula, but a conjunction with two operands over variable 2; the count is 13 instead of 11. -/
theorem C26_decomposable_false : Spec.isCNF wC = true ∧ NoBackbone wC [1, 2, 3, 4, 5, 6] ∧ compileCnf false (fun _ => wChoice true) 200 (some ([], [])) true wC = some gC ∧ ¬ Decomposable gC ∧
    (modelCount [] [1, 2, 3, 4, 5, 6] gC).1 = some 13 ∧ count [1, 2, 3, 4, 5, 6] (fun v => wC.eval v) = 11 ∧
    count [1, 2, 3, 4, 5, 6] (fun v => wC.eval v != gC.eval v) = 0 := by
  refine ⟨by decide +kernel, noBackbone_of [[1, 2, 5], [2, 5, 6], [3, 4, 5], [2, 4, 6]] (by decide +kernel) (by decide +kernel), by decide +kernel, ?_, by decide +kernel,
    by decide +kernel, by decide +kernel⟩
  intro h
  cases h with | or h =>
  have := h _ (List.mem_cons_of_mem _ List.mem_cons_self)
  cases this with | and _ h =>
  simp [wLit, Fm.vars, Fm.varsL] at h

/-- a formula that is compiled rightly, with a conflict on the way -/
def wD : Fm Nat := wCnf [[1, 2], [-1, 3, 4], [-2, 3], [2, -4, -3]]
example : Spec.isCNF wD = true := by decide +kernel
example : (compileCnf false (fun _ => wChoice true) 200 (some ([], [])) true wD).map (fun g => (modelCount [] [1, 2, 3, 4] g).1) = some (some (count [1, 2, 3, 4] fun v => wD.eval v)) := by decide +kernel
/-- a formula with a unit clause -/
example : compileCnf false (fun _ => wChoice true) 200 (some ([3], [])) true (wCnf [[1, 2], [3], [-1, -2, 3]]) = some (.and [wLit 3, .or [wLit 1, .and [wLit (-1), wLit 2]]]) := by decide +kernel
example : (treeOf [[⟨1, true⟩, ⟨2, true⟩], [⟨1, false⟩, ⟨3, true⟩, ⟨4, true⟩], [⟨2, false⟩, ⟨3, true⟩]] [1, 2, 3, 4]).isSome = true := by decide +kernel
/-- the leaf `1 | 2 | 3` while nothing is known -/
example : leafLoop false (newVar (newVar (newVar S.init))) [1, 2, 3] [⟨1, true⟩, ⟨2, true⟩, ⟨3, false⟩] [] [] =
    .or [wLit 1, .and [wLit (-1), wLit 2], .and [wLit (-1), wLit (-2), wLit (-3)]] := by decide +kernel

end Verif.Dnnf
