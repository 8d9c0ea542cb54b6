import Verif.Factory.Props
/-!
# The literals of a constraint are shared with the solver (C51)

`PBCOps` hands out the slice of literals that the factory stores (formula/factory.go:900-914), and `generateClauseVector` of the SAT solver sorts the slice it is given in
place (sat/solver.go:148-163).  With `UseAtMostClauses` the solver passes the one to the other (sat/solver.go:83-97).  So adding a constraint to a solver is an operation on
the factory, too.
-/
namespace Verif.Factory
open Verif

/-- insertion into a list of handles sorted by their numbers; `slices.Sort` of sat/solver.go:150 on distinct or equal numbers gives the same list -/
def insH (x : H) : List H → List H
  | [] => [x]
  | y :: ys => if x.code ≤ y.code then x :: y :: ys else y :: insH x ys

/-- sat/solver.go:150 `slices.Sort(literals)` -/
def sortH (xs : List H) : List H := xs.foldr insH []

/-- sat/solver.go:85-93: which cardinality constraints become at-most clauses -/
def asAtMost : Cmp → Int → Bool
  | .le, _ => true
  | .lt, k => decide (k > 3)
  | .eq, k => decide (k = 1)
  | _, _ => false

/-- What `Solver.Add` (sat/solver.go:82-97) does to the tables of the factory, for a solver with `UseAtMostClauses`: the literals of a constraint that becomes an at-most
clause are sorted where they are stored.  New variables and auxiliary formulas, which other formulas cause, are ordinary constructor calls (`step`) and left out. -/
def solverAdd (s : Fac) (h : H) : Fac :=
  match s.nodes h with
  | some (.cc c k os) => if asAtMost c k then { s with nodes := upd s.nodes h (some (.cc c k (sortH os))) } else s
  | _ => s

theorem insH_perm (x : H) : ∀ ys : List H, (insH x ys).Perm (x :: ys)
  | [] => List.Perm.refl _
  | y :: ys => by
    unfold insH
    split
    · exact List.Perm.refl _
    · exact ((insH_perm x ys).cons y).trans (List.Perm.swap x y ys)

theorem sortH_perm (xs : List H) : (sortH xs).Perm xs := by
  induction xs with
  | nil => exact List.Perm.refl _
  | cons x xs ih => exact (insH_perm x _).trans (ih.cons x)

theorem cntTrue_perm {v : String → Bool} {xs ys : List String} (h : xs.Perm ys) : cntTrue v xs = cntTrue v ys := by
  induction h with
  | nil => rfl
  | cons x _ ih => simp only [cntTrue, ih]
  | swap x y l => simp only [cntTrue]; omega
  | trans _ _ h1 h2 => exact h1.trans h2

/-- sorting the literals of one constraint changes no literal, and constraints keep their literals up to order -/
theorem solverAdd_node (s : Fac) (h h0 : H) :
    (solverAdd s h).nodes h0 = s.nodes h0 ∨
      ∃ c k os, s.nodes h0 = some (.cc c k os) ∧ (solverAdd s h).nodes h0 = some (.cc c k (sortH os)) := by
  unfold solverAdd
  cases e : s.nodes h with
  | none => exact .inl rfl
  | some n =>
    cases n with
    | cc c k os =>
      dsimp only
      split
      · dsimp only [upd]
        split
        · rename_i e0; subst e0; exact .inr ⟨c, k, os, e, rfl⟩
        · exact .inl rfl
      · exact .inl rfl
    | _ => exact .inl rfl

theorem solverAdd_keep {s : Fac} {h h0 : H} {n : Node} (hn : s.nodes h0 = some n) (hc : ∀ c k os, n ≠ .cc c k os) : (solverAdd s h).nodes h0 = some n := by
  rcases solverAdd_node s h h0 with e | ⟨c, k, os, e, _⟩
  · rw [e, hn]
  · rw [hn] at e; exact absurd (Option.some.inj e) (hc c k os)

theorem map_perm_lits {N : Nodes} {os os' : List H} (hp : os'.Perm os) : ∀ {xs : List String}, os.map N = xs.map (fun x => some (.lit x true)) →
    ∃ ys : List String, ys.Perm xs ∧ os'.map N = ys.map (fun x => some (.lit x true)) := by
  induction hp with
  | nil => intro xs e; exact ⟨xs, List.Perm.refl _, e⟩
  | cons o _ ih =>
    intro xs e
    cases xs with
    | nil => cases e
    | cons x xs =>
      simp only [List.map_cons, List.cons.injEq] at e
      obtain ⟨ys, h1, h2⟩ := ih e.2
      exact ⟨x :: ys, h1.cons x, by simp only [List.map_cons, h2, e.1]⟩
  | swap a b l =>
    intro xs e
    match xs, e with
    | [_], e => exact absurd (congrArg List.length e) (by simp)
    | x :: y :: xs, e =>
      simp only [List.map_cons, List.cons.injEq] at e
      exact ⟨y :: x :: xs, List.Perm.swap x y xs, by simp only [List.map_cons, e.1, e.2.1, e.2.2]⟩
  | trans _ _ h1 h2 =>
    intro xs e
    obtain ⟨ys, p1, e1⟩ := h2 e
    obtain ⟨zs, p2, e2⟩ := h1 e1
    exact ⟨zs, p2.trans p1, e2⟩

theorem keep_lits {s : Fac} (h : H) : ∀ {os : List H} {xs : List String}, os.map s.nodes = xs.map (fun x => some (.lit x true)) →
    os.map (solverAdd s h).nodes = xs.map (fun x => some (.lit x true))
  | [], [], _ => rfl
  | [], _ :: _, e => by cases e
  | _ :: _, [], e => by cases e
  | o :: os, x :: xs, e => by
    simp only [List.map_cons, List.cons.injEq] at e ⊢
    exact ⟨solverAdd_keep e.1 (fun _ _ _ e => by cases e), keep_lits h e.2⟩

theorem keep_terms {s : Fac} (h : H) : ∀ {os : List (Int × H)} {ts : List (Int × Lit String)},
    os.map (fun o => (o.1, s.nodes o.2)) = ts.map (fun t => (t.1, some (.lit t.2.var t.2.pos))) →
    os.map (fun o => (o.1, (solverAdd s h).nodes o.2)) = ts.map (fun t => (t.1, some (.lit t.2.var t.2.pos)))
  | [], [], _ => rfl
  | [], _ :: _, e => by cases e
  | _ :: _, [], e => by cases e
  | o :: os, x :: xs, e => by
    simp only [List.map_cons, List.cons.injEq, Prod.mk.injEq] at e ⊢
    exact ⟨⟨e.1.1, solverAdd_keep e.1.2 (fun _ _ _ e => by cases e)⟩, keep_terms h e.2⟩

theorem keep_list {s : Fac} {h : H} : ∀ {fs : List (Fm String)},
    (∀ f ∈ fs, ∀ h0, Den s.nodes f h0 → ∃ g, Den (solverAdd s h).nodes g h0 ∧ ∀ v, g.eval v = f.eval v) → ∀ {os : List H}, DenL s.nodes fs os →
    ∃ gs, DenL (solverAdd s h).nodes gs os ∧ ∀ v, gs.map (Fm.eval v) = fs.map (Fm.eval v)
  | [], _, os, d => ⟨[], by rw [DenL_nil] at *; exact d, fun _ => rfl⟩
  | f :: fs, ih, os, d => by
    rw [DenL_cons] at d
    obtain ⟨h1, hs, rfl, d1, d2⟩ := d
    obtain ⟨g, e1, e2⟩ := ih f List.mem_cons_self h1 d1
    obtain ⟨gs, e3, e4⟩ := keep_list (fun k hk => ih k (List.mem_cons_of_mem _ hk)) d2
    exact ⟨g :: gs, by rw [DenL_cons]; exact ⟨h1, hs, rfl, e1, e3⟩, fun v => by simp only [List.map_cons, e2 v, e4 v]⟩

theorem all_of_map {α : Type} {p : α → Bool} : ∀ {xs ys : List α}, xs.map p = ys.map p → xs.all p = ys.all p ∧ xs.any p = ys.any p
  | [], [], _ => ⟨rfl, rfl⟩
  | [], _ :: _, e => by cases e
  | _ :: _, [], e => by cases e
  | x :: xs, y :: ys, e => by
    simp only [List.map_cons, List.cons.injEq] at e
    obtain ⟨h1, h2⟩ := all_of_map e.2
    simp only [List.all_cons, List.any_cons, e.1, h1, h2, and_self]

theorem solverAdd_den {s : Fac} {h : H} (f : Fm String) : ∀ h0, Den s.nodes f h0 → ∃ g, Den (solverAdd s h).nodes g h0 ∧ ∀ v, g.eval v = f.eval v := by
  induction f using Fm.ind with
  | hf => intro h0 d; exact ⟨.fls, by simpa only [Den] using d, fun _ => rfl⟩
  | ht => intro h0 d; exact ⟨.tru, by simpa only [Den] using d, fun _ => rfl⟩
  | hl l =>
    intro h0 d
    simp only [Den] at d
    exact ⟨.lit l, by simp only [Den]; exact solverAdd_keep d (fun _ _ _ e => by cases e), fun _ => rfl⟩
  | hn f ih =>
    intro h0 d
    simp only [Den] at d
    obtain ⟨o, h1, h2⟩ := d
    obtain ⟨g, e1, e2⟩ := ih o h2
    exact ⟨.not g, by simp only [Den]; exact ⟨o, solverAdd_keep h1 (fun _ _ _ e => by cases e), e1⟩, fun v => by simp only [Fm.eval, e2]⟩
  | ha fs ih =>
    intro h0 d
    simp only [Den] at d
    obtain ⟨os, h1, h2⟩ := d
    obtain ⟨gs, e1, e2⟩ := keep_list ih h2
    exact ⟨.and gs, by simp only [Den]; exact ⟨os, solverAdd_keep h1 (fun _ _ _ e => by cases e), e1⟩,
      fun v => by simp only [Fm.eval, Fm.evalAll_eq]; exact (all_of_map (e2 v)).1⟩
  | ho fs ih =>
    intro h0 d
    simp only [Den] at d
    obtain ⟨os, h1, h2⟩ := d
    obtain ⟨gs, e1, e2⟩ := keep_list ih h2
    exact ⟨.or gs, by simp only [Den]; exact ⟨os, solverAdd_keep h1 (fun _ _ _ e => by cases e), e1⟩,
      fun v => by simp only [Fm.eval, Fm.evalAny_eq]; exact (all_of_map (e2 v)).2⟩
  | hi f g ih1 ih2 =>
    intro h0 d
    simp only [Den] at d
    obtain ⟨l, r, h1, hl, hr⟩ := d
    obtain ⟨a, a1, a2⟩ := ih1 l hl
    obtain ⟨b, b1, b2⟩ := ih2 r hr
    exact ⟨.impl a b, by simp only [Den]; exact ⟨l, r, solverAdd_keep h1 (fun _ _ _ e => by cases e), a1, b1⟩, fun v => by simp only [Fm.eval, a2, b2]⟩
  | he f g ih1 ih2 =>
    intro h0 d
    simp only [Den] at d
    obtain ⟨l, r, h1, hl, hr⟩ := d
    obtain ⟨a, a1, a2⟩ := ih1 l hl
    obtain ⟨b, b1, b2⟩ := ih2 r hr
    exact ⟨.equiv a b, by simp only [Den]; exact ⟨l, r, solverAdd_keep h1 (fun _ _ _ e => by cases e), a1, b1⟩, fun v => by simp only [Fm.eval, a2, b2]⟩
  | hc c k xs =>
    intro h0 d
    simp only [Den] at d
    obtain ⟨os, h1, h2⟩ := d
    rcases solverAdd_node s h h0 with e | ⟨c', k', os', e, e'⟩
    · exact ⟨.cc c k xs, by simp only [Den]; exact ⟨os, by rw [e, h1], keep_lits h h2⟩, fun _ => rfl⟩
    · rw [h1] at e
      cases e
      obtain ⟨ys, hp, hy⟩ := map_perm_lits (sortH_perm os) h2
      exact ⟨.cc c k ys, by simp only [Den]; exact ⟨sortH os, e', keep_lits h hy⟩, fun v => by simp only [Fm.eval, cntTrue_perm hp]⟩
  | hp c k ts =>
    intro h0 d
    simp only [Den] at d
    obtain ⟨os, h1, h2⟩ := d
    exact ⟨.pbc c k ts, by simp only [Den]; exact ⟨os, solverAdd_keep h1 (fun _ _ _ e => by cases e), keep_terms h h2⟩, fun _ => rfl⟩

/-! ## C51 -/

/-- C51, the half that holds: whatever constraints are added to solvers, in any order, each handle still stands for a formula, and it has the same truth value as before
under each assignment.  Missing: the formula itself stays the same, see the refutations below. -/
theorem C51_partial {s : Fac} {f : Fm String} {h0 : H} (d : Den s.nodes f h0) (added : List H) :
    ∃ g, Den (added.foldl solverAdd s).nodes g h0 ∧ ∀ v, g.eval v = f.eval v := by
  induction added generalizing s f with
  | nil => exact ⟨f, d, fun _ => rfl⟩
  | cons h hs ih =>
    obtain ⟨g, d1, e1⟩ := solverAdd_den (h := h) f h0 d
    obtain ⟨k, d2, e2⟩ := ih d1
    exact ⟨k, d2, fun v => (e2 v).trans (e1 v)⟩

/-- C51: adding formulas that do not become at-most clauses changes nothing -/
theorem C51_other_partial (s : Fac) (h : H) (hh : ∀ c k os, s.nodes h = some (.cc c k os) → asAtMost c k = false) : solverAdd s h = s := by
  unfold solverAdd
  cases e : s.nodes h with
  | none => rfl
  | some n =>
    cases n with
    | cc c k os => dsimp only; rw [hh c k os e]; rfl
    | _ => rfl

/-- variables a, b and the constraint `b + a ≤ 1` -/
def shOps : List Op := [.var "a", .var "b", .cc .le 1 [hB, hA]]
def shS : Fac := run (init false) shOps
def hBA : H := ⟨.cc, 7⟩

theorem shS_reach : Reach false shS := by
  refine .step (op := .cc .le 1 [hB, hA]) (.step (op := .var "b") (.step (op := .var "a") .init trivial ?_) trivial ?_) ?_ ?_
  · decide +kernel
  · decide +kernel
  · intro o ho
    simp at ho
    rcases ho with rfl | rfl
    · exact ⟨"b", by decide +kernel⟩
    · exact ⟨"a", by decide +kernel⟩
  · decide +kernel

/-- C51 is false: after the constraint `b + a ≤ 1` was added to a solver the same call of `CC` gives another handle than before, although it gave the same before. -/
theorem C51_interning_false : (step shS (.cc .le 1 [hB, hA])).2 = hBA ∧ (step (solverAdd shS hBA) (.cc .le 1 [hB, hA])).2 ≠ hBA := by decide +kernel

/-- C51 is false: the operands of the handle change -/
theorem C51_operands_false : shS.nodes hBA = some (.cc .le 1 [hB, hA]) ∧ (solverAdd shS hBA).nodes hBA = some (.cc .le 1 [hA, hB]) := by decide +kernel

/-- C51 is false: if `a + b ≤ 1` was built, too, afterwards two different handles stand for it -/
theorem C51_unique_false :
    let s := solverAdd (step shS (.cc .le 1 [hA, hB])).1 hBA
    ∃ h h', h ≠ h' ∧ s.nodes h = some (.cc .le 1 [hA, hB]) ∧ s.nodes h' = some (.cc .le 1 [hA, hB]) :=
  ⟨hBA, ⟨.cc, 9⟩, by decide +kernel, by decide +kernel, by decide +kernel⟩

/-- `C51_partial` on that factory -/
example : Den shS.nodes (.cc .le 1 ["b", "a"]) hBA := by
  simp only [Den]
  exact ⟨[hB, hA], by decide +kernel, by decide +kernel⟩
/-- a constraint that does not become an at-most clause -/
example : asAtMost .lt 3 = false ∧ asAtMost .lt 4 = true ∧ asAtMost .eq 1 = true ∧ asAtMost .eq 2 = false ∧ asAtMost .ge 1 = false := by decide

end Verif.Factory
