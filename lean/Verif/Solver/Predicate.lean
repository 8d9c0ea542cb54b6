import Verif.Solver.Constr
import Verif.Sat.Predicate
/-! C44 on the solver of C50: the predicates of sat/predicate.go with the SAT solver itself in place of its specification. -/
namespace Verif.Predicate
open Verif Verif.Tree Verif.Solver
variable {α : Type} [DecidableEq α]

/-- sat/predicate.go:6-38 `NewSolver`, `Add` of one formula, solver.go:176-178 `Sat`.  `none`: no answer -/
def freshSat (E : Env α) (fuel : Nat) (r : Sat.Run) (f : Fm α) : Option Bool :=
  match FS.run E fuel {} [.add f] with
  | none => none
  | some t => match t.call E fuel r [] [] with
    | none => none
    | some x => x.2.verdict

/-- predicate.go:6-10 -/
def isSatisfiableS (E : Env α) (fuel : Nat) (r : Sat.Run) (f : Fm α) : Option Bool := freshSat E fuel r f
/-- predicate.go:13-17 -/
def isTautologyS (E : Env α) (fuel : Nat) (r : Sat.Run) (f : Fm α) : Option Bool := (freshSat E fuel r (tNot f)).map (!·)
/-- predicate.go:20-24 -/
def isContradictionS (E : Env α) (fuel : Nat) (r : Sat.Run) (f : Fm α) : Option Bool := (freshSat E fuel r f).map (!·)
/-- predicate.go:27-31 -/
def impliesS (E : Env α) (fuel : Nat) (r : Sat.Run) (f g : Fm α) : Option Bool := (freshSat E fuel r (tAnd E.cons [f, tNot g])).map (!·)
/-- predicate.go:34-38 -/
def isEquivalentS (E : Env α) (fuel : Nat) (r : Sat.Run) (f g : Fm α) : Option Bool :=
  (freshSat E fuel r (tOr E.cons [tAnd E.cons [f, tNot g], tAnd E.cons [g, tNot f]])).map (!·)

/-! ### the constraints of composed formulas -/

theorem pbs_tAnd (c : Bool) (fs : List (Fm α)) : ∀ x ∈ NF.pbs (tAnd c fs), ∃ f ∈ fs, x ∈ NF.pbs f := by
  unfold tAnd
  have key : ∀ a, foldOpt (tStepAnd c) [] fs = some a → ∀ g ∈ a, ∀ x ∈ NF.pbs g, ∃ f ∈ fs, x ∈ NF.pbs f := by
    intro a h g hg x hx
    rcases tAnd_condensed_mem h g hg with h | ⟨gs, h, h'⟩
    · exact ⟨g, h, hx⟩
    · exact ⟨_, h, by simp only [NF.pbs_and, List.mem_flatMap]; exact ⟨g, h', hx⟩⟩
  split
  · simp [NF.pbs]
  · simp [NF.pbs]
  · rename_i g h; exact key _ h g (by simp)
  · rename_i a _ _ h
    intro x hx
    simp only [NF.pbs_and, List.mem_flatMap] at hx
    obtain ⟨g, hg, hx⟩ := hx
    exact key _ h g hg x hx
theorem pbs_tOr (c : Bool) (fs : List (Fm α)) : ∀ x ∈ NF.pbs (tOr c fs), ∃ f ∈ fs, x ∈ NF.pbs f := by
  unfold tOr
  have key : ∀ a, foldOpt (tStepOr c) [] fs = some a → ∀ g ∈ a, ∀ x ∈ NF.pbs g, ∃ f ∈ fs, x ∈ NF.pbs f := by
    intro a h g hg x hx
    rcases tOr_condensed_mem h g hg with h | ⟨gs, h, h'⟩
    · exact ⟨g, h, hx⟩
    · exact ⟨_, h, by simp only [NF.pbs_or, List.mem_flatMap]; exact ⟨g, h', hx⟩⟩
  split
  · simp [NF.pbs]
  · simp [NF.pbs]
  · rename_i g h; exact key _ h g (by simp)
  · rename_i a _ _ h
    intro x hx
    simp only [NF.pbs_or, List.mem_flatMap] at hx
    obtain ⟨g, hg, hx⟩ := hx
    exact key _ h g hg x hx
omit [DecidableEq α] in
theorem pbs_tNot (f : Fm α) : NF.pbs (tNot f) = NF.pbs f := by cases f <;> simp [tNot, NF.pbs]

/-- the constraints of `f` are among `gs`, and there are no auxiliary variables -/
def Closed (nm : Nat → α) (gs : List (Fm α)) (f : Fm α) : Prop := (∀ g ∈ NF.pbs f, NF.isPB g = true → g ∈ gs) ∧ ∀ x ∈ f.vars, ∀ n, x ≠ nm n

section
variable {nm : Nat → α} {gs : List (Fm α)}
theorem Closed.tNot {f : Fm α} (h : Closed nm gs f) : Closed nm gs (tNot f) := ⟨by rw [pbs_tNot]; exact h.1, by simpa using h.2⟩
theorem Closed.tAnd {c : Bool} {fs : List (Fm α)} (h : ∀ f ∈ fs, Closed nm gs f) : Closed nm gs (tAnd c fs) :=
  ⟨fun g hg => by obtain ⟨f, hf, hg⟩ := pbs_tAnd c fs g hg; exact (h f hf).1 g hg, fun x hx => by obtain ⟨f, hf, hx⟩ := vars_tAnd c fs x hx; exact (h f hf).2 x hx⟩
theorem Closed.tOr {c : Bool} {fs : List (Fm α)} (h : ∀ f ∈ fs, Closed nm gs f) : Closed nm gs (tOr c fs) :=
  ⟨fun g hg => by obtain ⟨f, hf, hg⟩ := pbs_tOr c fs g hg; exact (h f hf).1 g hg, fun x hx => by obtain ⟨f, hf, hx⟩ := vars_tOr c fs x hx; exact (h f hf).2 x hx⟩

variable {cons nnf : Bool} {srt : List (Lit α) → List (Lit α)} {ord : PB.Terms α → PB.Terms α} {pcfg : PB.PbCfg} {ccfg : Enc.CCCfg} {fuel : Nat}
  {t : List (Fm α × Nat × List (Enc.Clause α) × Nat)}

/-- the surroundings of the predicates: the encoders return on the constraints `gs`, and are right on them -/
structure Setting (cons : Bool) (srt : List (Lit α) → List (Lit α)) (ord : PB.Terms α → PB.Terms α) (pcfg : PB.PbCfg) (ccfg : Enc.CCCfg) (fuel : Nat) (nm : Nat → α)
    (gs : List (Fm α)) (t : List (Fm α × Nat × List (Enc.Clause α) × Nat)) : Prop where
  hsrt : ∀ ls l, l ∈ srt ls ↔ l ∈ ls
  hord : ∀ l, (ord l).Perm l
  inj : ∀ m n, nm m = nm n → m = n
  tab : ∃ k, NF.encodeAll cons ord pcfg ccfg fuel gs k = some t
  enc : ∀ g ∈ gs, NF.Encodable pcfg g ∧ (∀ x ∈ g.vars, ∀ n, x ≠ nm n) ∧ ∀ k, (NF.encodeTop cons ord pcfg ccfg fuel k g).isSome = true

theorem isPB_self {f : Fm α} (h : NF.isPB f = true) : f ∈ NF.pbs f := by
  cases f <;> first | (cases h; done) | simp [NF.pbs]

theorem freshSat_ok (S : Setting cons srt ord pcfg ccfg fuel nm gs t) {f : Fm α} (hf : Closed nm gs f) {fuel' : Nat} {r : Sat.Run} (hr : r.Calm false) {b : Bool}
    (h : freshSat (encEnv cons srt ord pcfg ccfg fuel nm t nnf false) fuel' r f = some b) : b = true ↔ ∃ v, f.eval v = true := by
  unfold freshSat at h
  cases h1 : FS.run (encEnv cons srt ord pcfg ccfg fuel nm t nnf false) fuel' {} [.add f] with
  | none => rw [h1] at h; cases h
  | some s =>
    rw [h1] at h
    dsimp only at h
    cases h2 : s.call (encEnv cons srt ord pcfg ccfg fuel nm t nnf false) fuel' r [] [] with
    | none => rw [h2] at h; cases h
    | some x =>
      rw [h2] at h
      dsimp only at h
      obtain ⟨k, ht⟩ := S.tab
      have ok : FmOk (encEnv cons srt ord pcfg ccfg fuel nm t nnf false) ord pcfg ccfg fuel nm gs f := by
        refine ⟨hf.2, fun q hq => by simp [amPart, encEnv] at hq, fun _ h => ?_, fun _ _ => hf.1⟩
        have hp : NF.isPB f = true := by cases f <;> first | rfl | cases h
        have := S.enc f (hf.1 f (isPB_self hp) hp)
        exact ⟨this.1, this.2.2⟩
      have := (C50_encoders_partial S.hsrt S.hord S.inj ht (fun g hg => ⟨(S.enc g hg).1, (S.enc g hg).2.1⟩) (fun o ho => by rw [List.mem_singleton.1 ho]; exact ok) h1
        (r := r) (lits := []) (props := []) ⟨hr, by simp, by simp⟩ (s' := x.1) (res := x.2) h2).verdict b h
      refine Iff.trans this ?_
      refine exists_congr fun v => ⟨fun h => h.1 f (by simp [FA.run, FA.step]), fun h => ⟨fun g hg => ?_, by simp⟩⟩
      have : g = f := by simpa [FA.run, FA.step] using hg
      rw [this]; exact h

theorem freshSat_not (S : Setting cons srt ord pcfg ccfg fuel nm gs t) {f : Fm α} (hf : Closed nm gs f) {fuel' : Nat} {r : Sat.Run} (hr : r.Calm false) {b : Bool}
    (h : (freshSat (encEnv cons srt ord pcfg ccfg fuel nm t nnf false) fuel' r f).map (!·) = some b) : b = true ↔ ∀ v, f.eval v = false := by
  obtain ⟨c, hc, rfl⟩ := Option.map_eq_some_iff.1 h
  have := freshSat_ok S hf hr hc
  rw [Bool.not_eq_true', ← Bool.not_eq_true, this]
  simp

/-- **C44** on the solver: whatever a predicate answers is right, whatever the heuristics of the solver do, with either Plaisted–Greenbaum method (the default is one
of them), and for formulas with cardinality and pseudo-Boolean constraints.
Missing: that there is an answer (partial correctness); constraints for which the encoders are wrong (`NF.Encodable`; `C50_eq_false`). -/
theorem C44_solver_partial (S : Setting cons srt ord pcfg ccfg fuel nm gs t) {f g : Fm α} (hf : Closed nm gs f) (hg : Closed nm gs g) {fuel' : Nat} {r : Sat.Run} (hr : r.Calm false)
    {E : Env α} (hE : E = encEnv cons srt ord pcfg ccfg fuel nm t nnf false) (b : Bool) :
    (isSatisfiableS E fuel' r f = some b → (b = true ↔ ∃ v, f.eval v = true)) ∧
    (isTautologyS E fuel' r f = some b → (b = true ↔ ∀ v, f.eval v = true)) ∧
    (isContradictionS E fuel' r f = some b → (b = true ↔ ∀ v, f.eval v = false)) ∧
    (impliesS E fuel' r f g = some b → (b = true ↔ ∀ v, f.eval v = true → g.eval v = true)) ∧
    (isEquivalentS E fuel' r f g = some b → (b = true ↔ ∀ v, f.eval v = g.eval v)) := by
  subst hE
  have two : ∀ {p q : Fm α}, Closed nm gs p → Closed nm gs q → ∀ x ∈ [p, q], Closed nm gs x := by
    intro p q hp hq x hx
    rcases List.mem_cons.1 hx with rfl | hx
    · exact hp
    · rw [List.mem_singleton.1 hx]; exact hq
  refine ⟨fun h => freshSat_ok S hf hr h, fun h => ?_, fun h => freshSat_not S hf hr h, fun h => ?_, fun h => ?_⟩
  · rw [freshSat_not S hf.tNot hr h]; simp
  · rw [freshSat_not S (Closed.tAnd (two hf hg.tNot)) hr h]
    refine forall_congr' fun v => ?_
    cases h1 : f.eval v <;> cases h2 : g.eval v <;> simp [h1, h2]
  · rw [freshSat_not S (Closed.tOr (two (Closed.tAnd (two hf hg.tNot)) (Closed.tAnd (two hg hf.tNot)))) hr h]
    refine forall_congr' fun v => ?_
    cases h1 : f.eval v <;> cases h2 : g.eval v <;> simp [h1, h2]
end

/-! ### a case -/
section examples
open Verif.NF (exX exPb)
/-- `x0 → ¬(2·x3 + 3·¬x6 + x9 ≤ 2)` against `¬x0 ∨ 2·x3 + 3·¬x6 + x9 > 2` -/
def exOther : Fm Nat := .or [.lit ⟨0, false⟩, .pbc .gt 2 [(2, ⟨3, true⟩), (3, ⟨6, false⟩), (1, ⟨9, true⟩)]]
def exGs : List (Fm Nat) := [.pbc .le 2 [(2, ⟨3, true⟩), (3, ⟨6, false⟩), (1, ⟨9, true⟩)], .pbc .gt 2 [(2, ⟨3, true⟩), (3, ⟨6, false⟩), (1, ⟨9, true⟩)]]
def exTabP : List (Fm Nat × Nat × List (Enc.Clause Nat) × Nat) := (NF.encodeAll false id exPb (Enc.ccOf .best) 9 exGs 0).getD []

example : Setting false id id exPb (Enc.ccOf .best) 9 exX exGs exTabP where
  hsrt _ _ := Iff.rfl
  hord _ := .refl _
  inj m n h := by unfold exX at h; omega
  tab := by
    obtain ⟨t, ht⟩ : ∃ t, NF.encodeAll false id exPb (Enc.ccOf .best) 9 exGs 0 = some t := Option.isSome_iff_exists.1 (by decide +kernel)
    exact ⟨0, by unfold exTabP; rw [ht]; rfl⟩
  enc g hg := by
    simp only [exGs, List.mem_cons, List.not_mem_nil, or_false] at hg
    have hv : ∀ (c : Cmp) (k : Int), ∀ x ∈ (Fm.pbc c k [(2, ⟨3, true⟩), (3, ⟨6, false⟩), (1, (⟨9, true⟩ : Lit Nat))]).vars, ∀ n, x ≠ exX n := by
      intro c k x hx n
      simp at hx
      unfold exX; omega
    have he : ∀ (c : Cmp) (k : Int), c ≠ .eq → ∀ n, (NF.encodeTop false id exPb (Enc.ccOf .best) 9 n (.pbc c k [(2, ⟨3, true⟩), (3, ⟨6, false⟩), (1, (⟨9, true⟩ : Lit Nat))])).isSome = true := by
      intro c k hc n
      obtain ⟨r, h, _⟩ := PB.C16_encodePBC_ineq (cons := false) (ord := id) (fun _ => .refl _) (cfg := exPb) (ccfg := Enc.ccOf .best) (fuel := 9) (k := n) (c := c) (rhs := k)
        (ts := [(2, ⟨3, true⟩), (3, ⟨6, false⟩), (1, (⟨9, true⟩ : Lit Nat))]) hc (by simp [exPb])
      exact Option.isSome_iff_exists.2 ⟨r, h⟩
    rcases hg with rfl | rfl
    · exact ⟨by simp [NF.Encodable, exPb], hv _ _, he _ _ (by decide)⟩
    · exact ⟨by simp [NF.Encodable, exPb], hv _ _, he _ _ (by decide)⟩
example : isTautologyS (encEnv false id id exPb (Enc.ccOf .best) 9 exX exTabP true false) 200 Sat.calmRun (.or [.lit ⟨0, true⟩, exInF]) = some true := by decide +kernel
example : impliesS (encEnv false id id exPb (Enc.ccOf .best) 9 exX exTabP true false) 200 Sat.calmRun exInF (.lit ⟨3, true⟩) = some false := by decide +kernel
end examples
end Verif.Predicate
