import Verif.MaxSat.Loading

/-! # MaxSAT algorithms: the SAT solver they call

The search algorithms of package `maxsat` call a core SAT solver.  Here the solver is the number of its variables and its clauses, and its answers come from an oracle: any answer
with the properties C18 and C19 prove of the solver's answers (a model of clauses and assumptions, or a conflict of negated assumptions that follows from the clauses), or a
cancellation by the handler. -/

namespace Verif.MaxAlg

open Verif.MaxSat (litVal clauseVal costC)

/-- sat/core_solver.go `Not`: the complement of a literal -/
def neg (l : Nat) : Nat := if l % 2 = 0 then l + 1 else l - 1

/-- sat/core_solver.go: number of variables and clauses of a solver; propagation, learnt clauses and level 0 assignments follow from the clauses (C18) -/
structure Sol where
  n : Nat
  cs : List (List Nat)
deriving DecidableEq, Repr

/-- `s.AddClause` (encoder.go:89-123, the algorithms call it with no proposition) -/
def Sol.add (s : Sol) (c : List Nat) : Sol := { s with cs := c :: s.cs }

def Sol.addAll (s : Sol) (cs : List (List Nat)) : Sol := { s with cs := cs ++ s.cs }

/-- algorithm.go:83 `newSatVariable`, `k` times: the new literals `sat.MkLit(s.NVars(), false)` -/
def Sol.freshN (s : Sol) (k : Nat) : List Nat × Sol := ((List.range' s.n k).map (2 * ·), { s with n := s.n + k })

/-- every clause holds -/
def Sol.Holds (s : Sol) (u : Nat → Bool) : Prop := ∀ c ∈ s.cs, clauseVal u c = true

/-- algorithm.go:87-95 `searchSatSolver`, `searchSatSolverWithAssumptions`: canceled by the handler, satisfiable with a model, unsatisfiable with `s.Conflict()` -/
inductive Ans where
  | cancel
  | sat (u : Nat → Bool)
  | unsat (core : List Nat)

/-- the answer to the `k`-th call -/
abbrev Orc := Nat → Sol → List Nat → Ans

/-- the answers are right (C18, C19) -/
def Orc.Ok (O : Orc) : Prop := ∀ k s as, match O k s as with
  | .cancel => True
  | .sat u => s.Holds u ∧ ∀ a ∈ as, litVal u a = true
  | .unsat core => (∀ l ∈ core, neg l ∈ as) ∧ core.Nodup ∧ ∀ u, s.Holds u → ∃ l ∈ core, litVal u l = true

/-- the clauses loaded on the MaxSAT solver (C31): variables, hard clauses, soft clauses with their weights -/
structure Prob where
  n : Nat
  hard : List (List Nat)
  soft : List (List Nat × Nat)

def Prob.Holds (P : Prob) (u : Nat → Bool) : Prop := ∀ c ∈ P.hard, clauseVal u c = true

/-- all literals belong to variables of the problem -/
structure Prob.WF (P : Prob) : Prop where
  hard : ∀ c ∈ P.hard, ∀ l ∈ c, l / 2 < P.n
  soft : ∀ c ∈ P.soft, ∀ l ∈ c.1, l / 2 < P.n

/-- result.go: canceled, unsatisfiable, or an optimum with a model -/
inductive Res where
  | cancel
  | unsat
  | opt (c : Nat) (u : Nat → Bool)

/-- some call of the solver is cancelled, or the handler stops the search -/
def Cancels (O : Orc) (H : Nat → Bool) : Prop := (∃ k s as, O k s as = .cancel) ∨ ∃ k, H k = false

/-- specification (C30): a search ends without result only if cancelled; the hard clauses are unsatisfiable if so reported; a reported optimum is the cost of the reported model, which satisfies the hard clauses, and no assignment
satisfying the hard clauses costs less -/
def Right (P : Prob) (O : Orc) (H : Nat → Bool) : Res → Prop
  | .cancel => Cancels O H
  | .unsat => ∀ u, ¬ P.Holds u
  | .opt c u => P.Holds u ∧ costC u P.soft = c ∧ ∀ u', P.Holds u' → c ≤ costC u' P.soft

/-! ## lemmas -/

theorem litVal_neg (u : Nat → Bool) (l : Nat) : litVal u (neg l) = !litVal u l := by
  unfold neg litVal
  split
  · rename_i h
    rw [if_neg (by omega), show (l + 1) / 2 = l / 2 by omega]
  · rename_i h
    rw [if_pos (by omega), show (l - 1) / 2 = l / 2 by omega]; simp

theorem neg_div (l : Nat) : neg l / 2 = l / 2 := by
  unfold neg; split <;> omega

theorem neg_neg (l : Nat) : neg (neg l) = l := by
  unfold neg; split <;> split <;> omega

theorem litVal_two (u : Nat → Bool) (v : Nat) : litVal u (2 * v) = u v := by
  unfold litVal
  rw [if_pos (by omega), show 2 * v / 2 = v by omega]

theorem litVal_congr {u w : Nat → Bool} {l : Nat} (h : u (l / 2) = w (l / 2)) : litVal u l = litVal w l := by
  unfold litVal; rw [h]

theorem clauseVal_congr {u w : Nat → Bool} {c : List Nat} (h : ∀ l ∈ c, u (l / 2) = w (l / 2)) : clauseVal u c = clauseVal w c := by
  unfold clauseVal
  induction c with
  | nil => rfl
  | cons x xs ih => rw [List.any_cons, List.any_cons, litVal_congr (h x List.mem_cons_self), ih fun l hl => h l (List.mem_cons_of_mem _ hl)]

theorem costC_congr {u w : Nat → Bool} : ∀ {S : List (List Nat × Nat)}, (∀ c ∈ S, ∀ l ∈ c.1, u (l / 2) = w (l / 2)) → costC u S = costC w S
  | [], _ => rfl
  | (c, k) :: S, h => by
    rw [costC, costC, clauseVal_congr (h (c, k) List.mem_cons_self), costC_congr fun c hc => h c (List.mem_cons_of_mem _ hc)]

theorem Sol.holds_add {s : Sol} {c : List Nat} {u : Nat → Bool} : (s.add c).Holds u ↔ clauseVal u c = true ∧ s.Holds u := by
  unfold Sol.add Sol.Holds; simp

theorem Sol.holds_addAll {s : Sol} {cs : List (List Nat)} {u : Nat → Bool} : (s.addAll cs).Holds u ↔ (∀ c ∈ cs, clauseVal u c = true) ∧ s.Holds u := by
  unfold Sol.addAll Sol.Holds
  constructor
  · exact fun h => ⟨fun c hc => h c (List.mem_append_left _ hc), fun c hc => h c (List.mem_append_right _ hc)⟩
  · rintro ⟨h1, h2⟩ c hc
    rcases List.mem_append.1 hc with h | h
    · exact h1 c h
    · exact h2 c h

/-- all literals of the clauses belong to variables of the solver -/
def Sol.WF (s : Sol) : Prop := ∀ c ∈ s.cs, ∀ l ∈ c, l / 2 < s.n

theorem Sol.holds_congr {s : Sol} (hw : s.WF) {u w : Nat → Bool} (h : ∀ x < s.n, u x = w x) : s.Holds u ↔ s.Holds w := by
  unfold Sol.Holds
  constructor
  · exact fun hu c hc => by rw [← hu c hc]; exact clauseVal_congr fun l hl => (h _ (hw c hc l hl)).symm
  · exact fun hu c hc => by rw [← hu c hc]; exact clauseVal_congr fun l hl => h _ (hw c hc l hl)

theorem Prob.holds_congr {P : Prob} (hw : P.WF) {u w : Nat → Bool} (h : ∀ x < P.n, u x = w x) : P.Holds u ↔ P.Holds w := by
  unfold Prob.Holds
  constructor
  · exact fun hu c hc => by rw [← hu c hc]; exact clauseVal_congr fun l hl => (h _ (hw.hard c hc l hl)).symm
  · exact fun hu c hc => by rw [← hu c hc]; exact clauseVal_congr fun l hl => h _ (hw.hard c hc l hl)

theorem Prob.cost_congr {P : Prob} (hw : P.WF) {u w : Nat → Bool} (h : ∀ x < P.n, u x = w x) : costC u P.soft = costC w P.soft :=
  costC_congr fun c hc l hl => h _ (hw.soft c hc l hl)

/-- number of true literals -/
def cnt (u : Nat → Bool) (ls : List Nat) : Nat := ls.countP (litVal u)

theorem cnt_congr {u w : Nat → Bool} {ls : List Nat} (h : ∀ l ∈ ls, u (l / 2) = w (l / 2)) : cnt u ls = cnt w ls := by
  unfold cnt
  exact List.countP_congr fun l hl => by rw [litVal_congr (h l hl)]

theorem cnt_append (u : Nat → Bool) (a b : List Nat) : cnt u (a ++ b) = cnt u a + cnt u b := List.countP_append

theorem cnt_le (u : Nat → Bool) (a : List Nat) : cnt u a ≤ a.length := List.countP_le_length

theorem cnt_perm {u : Nat → Bool} {a b : List Nat} (h : a.Perm b) : cnt u a = cnt u b := h.countP_eq _

theorem cnt_eq_zero {u : Nat → Bool} {a : List Nat} : cnt u a = 0 ↔ ∀ l ∈ a, litVal u l = false := by
  unfold cnt; rw [List.countP_eq_zero]; simp

theorem clauseVal_iff {u : Nat → Bool} {c : List Nat} : clauseVal u c = true ↔ ∃ l ∈ c, litVal u l = true := by
  unfold clauseVal; simp

end Verif.MaxAlg
