import Verif.Bdd.ReadProps
import Verif.Bdd.OrderProps
import Verif.Simpl.UnitsShape
import Verif.NormalForm.CnfProps
/-
Model of the normal forms by way of a BDD, /repo/bdd/normalform.go (C59): ordering (C58), compilation (C51), reading of the paths (C54),
unit propagation (C36), negation normal form (C08).
-/
namespace Verif.Bdd
open Verif Verif.Tree
variable {α σ : Type} [DecidableEq α] [Inhabited α]

/-- parameters that are not part of the package: sorting of more than 12 elements, order of sets, negation normal form of constraints,
transformation to CNF within `ForceOrder`, order of the literals of a clause -/
structure NPar (α : Type) where
  big : List α → List α → List α
  content : List α → List α
  /-- NNF of the formula within `ForceOrder` -/
  nnfO : Fm α → Fm α
  pg : Fm α → Fm α
  /-- NNF of a constraint within the compilation -/
  nnfC : Fm α → Fm α
  /-- encoding of constraints within `NNF` -/
  enc : Fm α → Fm α
  srt : List (Lit α) → List (Lit α)

/-- bdd/normalform.go:80-85 `hasNormalform` (the answers of the predicates `IsCNF` and `IsDNF`) -/
def hasNormalform (cnf : Bool) (f : Fm α) : Bool := if cnf then Spec.isCNF f else Spec.isDNF f

/-- bdd/normalform.go:61-75 `compute`: ordering, compilation, normal form, simplification. Outer `none`: a panic or not finished after
`n` steps; inner `none`: cancelled. `sz` is the size of the table of the new kernel. -/
def computeBdd (P : Par) (h : σ → Bool × σ) (N : NPar α) (cons : Bool) (sz n : Nat) (cnf : Bool) (f : Fm α) (s : σ) : Option (Option (Fm α)) :=
  (Order.forceOrder N.big N.content N.nnfO N.pg n f).bind fun order =>
    (runNew P h N.nnfC order.length sz order [.compile f s]).bind fun st =>
      match st.out with
      | [.bdd a] => (bddNF cons ⟨st.w.k, id, id⟩ st.w.names cnf a).bind fun φ =>
        if cnf then (Simpl.propagateUnits cons N.srt n φ).map some
        else (Simpl.propagateUnits cons N.srt n (NF.nnf cons N.enc (tNot φ) true)).map fun g => some (NF.nnf cons N.enc (tNot g) true)
      | _ => some none

/-- bdd/normalform.go:42-78 `compute` without the cache -/
def computeNF (P : Par) (h : σ → Bool × σ) (N : NPar α) (cons : Bool) (sz n : Nat) (cnf : Bool) (f : Fm α) (s : σ) : Option (Option (Fm α)) :=
  match f with
  | .tru => some (some .tru)
  | .fls => some (some .fls)
  | .lit l => some (some (.lit l))
  | f => if hasNormalform cnf f then some (some f) else computeBdd P h N cons sz n cnf f s

/-! ### negation exchanges the normal forms -/

theorem isDNF_tOr {c : Bool} {fs : List (Fm α)} (h : ∀ f ∈ fs, Spec.isDNF f = true) : Spec.isDNF (tOr c fs) = true :=
  NF.isNF_outerJoin (c := c) (d := false) (fs := fs) h

theorem isDNF_tAnd {c : Bool} {fs : List (Fm α)} (h : ∀ f ∈ fs, Spec.isLit f = true) : Spec.isDNF (tAnd c fs) = true := by
  refine NF.isNF_innerJoin (c := c) (d := false) (fs := fs) fun f hf => ?_
  obtain ⟨l, rfl⟩ := NF.isLit_iff.1 (h f hf)
  exact .inr (.inr rfl)

theorem nnfL_eq (cons : Bool) (enc : Fm α → Fm α) (fs : List (Fm α)) (p : Bool) : NF.nnfL cons enc fs p = fs.map fun f => NF.nnf cons enc f p := by
  induction fs with
  | nil => rfl
  | cons f fs ih => simp [NF.nnfL, ih]

theorem lits_neg {cons : Bool} {enc : Fm α → Fm α} {fs : List (Fm α)} (h : fs.all Spec.isLit = true) :
    ∀ f ∈ NF.nnfL cons enc fs false, Spec.isLit f = true := by
  intro f hf
  rw [nnfL_eq] at hf
  obtain ⟨g, hg, rfl⟩ := List.mem_map.1 hf
  obtain ⟨l, rfl⟩ := NF.isLit_iff.1 (List.all_eq_true.1 h g hg)
  simp [NF.nnf, tNot, Spec.isLit]

theorem neg_dnf {cons : Bool} {enc : Fm α → Fm α} {φ : Fm α} (h : Spec.isDNF φ = true) : Spec.isCNF (NF.nnf cons enc (tNot φ) true) = true := by
  have hm : ∀ g, Spec.isMinterm g = true → Spec.isCNF (NF.nnf cons enc g false) = true := by
    intro g hg
    cases g with
    | lit l => simp [NF.nnf, tNot, Spec.isCNF, Spec.isClause]
    | and fs => simp only [NF.nnf]; exact NF.isCNF_tOr (lits_neg hg)
    | _ => cases hg
  cases φ with
  | tru => rfl
  | fls => rfl
  | lit l => rfl
  | or fs =>
    simp only [tNot, NF.nnf, Bool.not_true]
    refine NF.isCNF_tAnd fun f hf => ?_
    rw [nnfL_eq] at hf
    obtain ⟨g, hg, rfl⟩ := List.mem_map.1 hf
    exact hm g (List.all_eq_true.1 h g hg)
  | and fs => simp only [tNot, NF.nnf, Bool.not_true]; exact hm (.and fs) h
  | _ => cases h

theorem neg_cnf {cons : Bool} {enc : Fm α → Fm α} {φ : Fm α} (h : Spec.isCNF φ = true) : Spec.isDNF (NF.nnf cons enc (tNot φ) true) = true := by
  have hm : ∀ g, Spec.isClause g = true → Spec.isDNF (NF.nnf cons enc g false) = true := by
    intro g hg
    cases g with
    | lit l => simp [NF.nnf, tNot, Spec.isDNF, Spec.isMinterm]
    | or fs => simp only [NF.nnf]; exact isDNF_tAnd (lits_neg hg)
    | _ => cases hg
  cases φ with
  | tru => rfl
  | fls => rfl
  | lit l => rfl
  | and fs =>
    simp only [tNot, NF.nnf, Bool.not_true]
    refine isDNF_tOr fun f hf => ?_
    rw [nnfL_eq] at hf
    obtain ⟨g, hg, rfl⟩ := List.mem_map.1 hf
    exact hm g (List.all_eq_true.1 h g hg)
  | or fs => simp only [tNot, NF.nnf, Bool.not_true]; exact hm (.or fs) h
  | _ => cases h

theorem isNF_pbFree {φ : Fm α} (h : Spec.isCNF φ = true ∨ Spec.isDNF φ = true) : φ.pbFree = true := by
  have hl : ∀ fs : List (Fm α), fs.all Spec.isLit = true → fs.all Fm.pbFree = true := fun fs h => by
    rw [List.all_eq_true] at h ⊢
    intro f hf
    obtain ⟨l, rfl⟩ := NF.isLit_iff.1 (h f hf)
    simp
  have hc : ∀ g : Fm α, Spec.isClause g = true → g.pbFree = true := fun g h => by
    cases g with
    | lit l => simp
    | or fs => rw [Fm.pbFree_or]; exact hl fs h
    | _ => cases h
  have hm : ∀ g : Fm α, Spec.isMinterm g = true → g.pbFree = true := fun g h => by
    cases g with
    | lit l => simp
    | and fs => rw [Fm.pbFree_and]; exact hl fs h
    | _ => cases h
  rcases h with h | h
  · cases φ with
    | tru => simp
    | fls => simp
    | and fs =>
      rw [Fm.pbFree_and, List.all_eq_true]
      exact fun g hg => hc g (List.all_eq_true.1 h g hg)
    | lit l => simp
    | or fs => exact hc (.or fs) h
    | _ => cases h
  · cases φ with
    | tru => simp
    | fls => simp
    | or fs =>
      rw [Fm.pbFree_or, List.all_eq_true]
      exact fun g hg => hm g (List.all_eq_true.1 h g hg)
    | lit l => simp
    | and fs => exact hm (.and fs) h
    | _ => cases h

theorem pbFree_tNot {φ : Fm α} (h : φ.pbFree = true) : (tNot φ).pbFree = true := by
  cases φ <;> simp_all [tNot, Fm.pbFree]

theorem vars_tNot (φ : Fm α) : (tNot φ).vars = φ.vars := by
  cases φ <;> simp [tNot, Lit.neg]

theorem eval_neg {cons : Bool} {enc : Fm α → Fm α} {φ : Fm α} (h : Spec.isCNF φ = true ∨ Spec.isDNF φ = true) (v : α → Bool) :
    (NF.nnf cons enc (tNot φ) true).eval v = !φ.eval v := by
  rw [NF.C08_nnf_equivalent cons enc _ (pbFree_tNot (isNF_pbFree h)) v, eval_tNot]

theorem vars_neg {cons : Bool} {enc : Fm α → Fm α} {φ : Fm α} (h : Spec.isCNF φ = true ∨ Spec.isDNF φ = true) :
    ∀ x ∈ (NF.nnf cons enc (tNot φ) true).vars, x ∈ φ.vars := fun x hx => by
  have := NF.C08_nnf_vars cons enc _ (pbFree_tNot (isNF_pbFree h)) true x hx
  rwa [vars_tNot] at this

/-! ### theorems -/

/-- the parameters are what they stand for -/
structure NPar.Ok (N : NPar α) : Prop where
  big : ∀ l xs, (N.big l xs).Perm xs
  content : ∀ xs, (N.content xs).Nodup ∧ ∀ x, x ∈ N.content xs ↔ x ∈ xs
  srt : ∀ ls l, l ∈ N.srt ls ↔ l ∈ ls

/-- the wanted normal form -/
def IsNF (cnf : Bool) (g : Fm α) : Prop := if cnf then Spec.isCNF g = true else Spec.isDNF g = true

theorem tConjVars {cons : Bool} {cs : List (List (Lit α))} {X : List α} (h : ∀ c ∈ cs, ∀ l ∈ c, l.var ∈ X) :
    (∀ x ∈ (tAnd cons (cs.map tClause)).vars, x ∈ X) ∧ ∀ x ∈ (tOr cons (cs.map tMinterm)).vars, x ∈ X := by
  have h1 : ∀ (ls : List (Lit α)) x, x ∈ (tClause ls).vars ∨ x ∈ (tMinterm ls).vars → ∃ l ∈ ls, x = l.var := by
    intro ls x hx
    rcases ls with _ | ⟨a, _ | ⟨b, ls⟩⟩ <;> simp_all [tClause, tMinterm, List.mem_flatMap]
  constructor
  · intro x hx
    obtain ⟨f, hf, hx⟩ := vars_tAnd _ _ x hx
    obtain ⟨c, hc, rfl⟩ := List.mem_map.1 hf
    obtain ⟨l, hl, rfl⟩ := h1 c x (.inl hx)
    exact h c hc l hl
  · intro x hx
    obtain ⟨f, hf, hx⟩ := vars_tOr _ _ x hx
    obtain ⟨c, hc, rfl⟩ := List.mem_map.1 hf
    obtain ⟨l, hl, rfl⟩ := h1 c x (.inr hx)
    exact h c hc l hl

theorem opsOk_one {nnf : Fm α → Fm α} {f : Fm α} (hf : Compilable nnf f) (s : σ) : OpsOk nnf [Op.compile f s] := by
  intro pre o post e
  rcases pre with _ | ⟨a, pre⟩
  · simp only [List.nil_append, List.cons.injEq] at e
    obtain ⟨rfl, _⟩ := e
    exact ⟨by simp [Op.args], fun φ s' e => by cases e; exact hf⟩
  · simp at e

/-- the BDD and the formula that is read from it -/
theorem compute_read {P : Par} (hgr : ∀ s, s < P.grow s) (h : σ → Bool × σ) {N : NPar α} (cons : Bool) {sz : Nat} (hsz : 2 ≤ sz)
    {f : Fm α} (hf : Compilable N.nnfC f) (s : σ) {order : List α} {st : St α}
    (hrun : runNew P h N.nnfC order.length sz order [.compile f s] = some st) {a : Nat} (ha : st.out = [.bdd a]) (cnf : Bool) :
    ∃ φ, bddNF cons ⟨st.w.k, id, id⟩ st.w.names cnf a = some φ ∧ IsNF cnf φ ∧ (∀ v, φ.eval v = f.eval v) ∧
      ∀ x ∈ φ.vars, x ∈ order ∨ x ∈ f.vars := by
  have hok := opsOk_one (σ := σ) hf s
  have hnames : ∀ x ∈ st.w.names, x ∈ order ∨ x ∈ f.vars := by
    rcases runNew_spec hgr h N.nnfC order.length sz hsz order _ hok with ⟨h1, -⟩ | ⟨st', own, h1, -, -, h4, -⟩
    · rw [h1] at hrun; cases hrun
    · rw [h1] at hrun; cases hrun
      intro x hx
      rcases h4 x hx with h | ⟨o, ho, h⟩
      · exact .inl h
      · rw [List.mem_singleton.1 ho] at h; exact .inr h
  have hsem : ∀ v, (sems [Op.compile f s]).getD 0 (fun _ => false) v = f.eval v := fun v => rfl
  have hr : Reads P ⟨fun _ _ _ => 0, fun _ => 1⟩ order.length [Op.compile f s] st 0 ⟨st.w.k, id, id⟩ := .now ⟨_, rfl, .inl rfl⟩
  obtain ⟨⟨φ, cs, c1, c2, c3, c4, _, c6⟩, φ', ts, d1, d2, d3, d4, _, d6⟩ :=
    C54_normalForms hgr h N.nnfC order.length sz hsz order _ hok hrun (fun _ _ _ _ => Nat.zero_lt_one) hr (by rw [ha]; rfl) cons
  cases cnf with
  | true =>
    refine ⟨φ, c1, c3, fun v => (c4 v).trans (hsem v), fun x hx => hnames x ?_⟩
    rw [c2] at hx
    exact (tConjVars c6).1 x hx
  | false =>
    refine ⟨φ', d1, d3, fun v => (d4 v).trans (hsem v), fun x hx => hnames x ?_⟩
    rw [d2] at hx
    exact (tConjVars d6).2 x hx

/-- C59: what `CNF` and `DNF` of the package return is in the normal form, equivalent to the formula and without auxiliary variables -/
theorem C59_normalForm_partial {P : Par} (hgr : ∀ s, s < P.grow s) (h : σ → Bool × σ) {N : NPar α} (hN : N.Ok) (cons : Bool) {sz : Nat} (hsz : 2 ≤ sz)
    (n : Nat) (cnf : Bool) {f : Fm α} (hf : Compilable N.nnfC f) (s : σ) {g : Fm α} (hg : computeNF P h N cons sz n cnf f s = some (some g)) :
    IsNF cnf g ∧ Fm.Equivalent g f ∧ ∀ x ∈ g.vars, x ∈ f.vars ∨ x ∈ (N.nnfO f).vars := by
  have key : ∀ g, (if hasNormalform cnf f then some (some f) else computeBdd P h N cons sz n cnf f s) = some (some g) →
      IsNF cnf g ∧ Fm.Equivalent g f ∧ ∀ x ∈ g.vars, x ∈ f.vars ∨ x ∈ (N.nnfO f).vars := by
    intro g hg
    split at hg
    · rename_i hnf
      cases hg
      refine ⟨?_, fun v => rfl, fun x hx => .inl hx⟩
      cases cnf <;> simpa [IsNF, hasNormalform] using hnf
    · simp only [computeBdd, Option.bind_eq_some_iff] at hg
      obtain ⟨order, ho, st, hrun, hg⟩ := hg
      obtain ⟨_, hmem⟩ := Order.C58_force_partial N.big hN.big N.content hN.content N.nnfO N.pg n f order ho
      split at hg
      · rename_i a ha
        obtain ⟨φ, r1, r2, r3, r4⟩ := compute_read hgr h cons hsz hf s hrun ha cnf
        have r4 : ∀ x ∈ φ.vars, x ∈ f.vars ∨ x ∈ (N.nnfO f).vars := fun x hx => (r4 x hx).elim (hmem x).1 .inl
        rw [r1, Option.bind_some] at hg
        cases cnf with
        | true =>
          simp only [if_true, Option.map_eq_some_iff, Option.some.injEq] at hg
          obtain ⟨g', hg, rfl⟩ := hg
          obtain ⟨u1, u2⟩ := Simpl.C36_units_shape hN.srt hg
          exact ⟨u1, fun v => (Simpl.C36_units_cnf hN.srt r2 hg v).trans (r3 v), fun x hx => r4 x (u2 x hx)⟩
        | false =>
          simp only [Bool.false_eq_true, if_false, Option.map_eq_some_iff, Option.some.injEq] at hg
          obtain ⟨g', hg, rfl⟩ := hg
          have r2 : Spec.isDNF φ = true := r2
          obtain ⟨u1, u2⟩ := Simpl.C36_units_shape hN.srt hg
          refine ⟨neg_cnf u1, fun v => ?_, fun x hx => r4 x (vars_neg (.inr r2) x (u2 x (vars_neg (.inl u1) x hx)))⟩
          rw [eval_neg (.inl u1), Simpl.C36_units_cnf hN.srt (neg_dnf r2) hg v, eval_neg (.inr r2), Bool.not_not, r3]
      · cases hg
  unfold computeNF at hg
  split at hg
  · cases hg; exact ⟨by cases cnf <;> rfl, fun v => rfl, fun x hx => .inl hx⟩
  · cases hg; exact ⟨by cases cnf <;> rfl, fun v => rfl, fun x hx => .inl hx⟩
  · cases hg; exact ⟨by cases cnf <;> rfl, fun v => rfl, fun x hx => .inl hx⟩
  · exact key g hg

/-- C59: if the ordering is found, then without cancellation neither the kernel panics nor a result is missing: only the unit propagation (of a CNF
that is equivalent to the formula or its negation) is left -/
theorem C59_returns_partial {P : Par} (hgr : ∀ s, s < P.grow s) {h : σ → Bool × σ} (hh : ∀ s, (h s).1 = true) {N : NPar α} (hN : N.Ok) (cons : Bool) {sz : Nat}
    (hsz : 2 ≤ sz) (n : Nat) (cnf : Bool) {f : Fm α} (hf : Compilable N.nnfC f) (s : σ) {order : List α}
    (ho : Order.forceOrder N.big N.content N.nnfO N.pg n f = some order) :
    ∃ F, Spec.isCNF F = true ∧ (∀ v, F.eval v = (f.eval v == cnf)) ∧
      ((Simpl.propagateUnits cons N.srt n F).isSome → ∃ g, computeNF P h N cons sz n cnf f s = some (some g)) := by
  obtain ⟨hnd, hmem⟩ := Order.C58_force_partial N.big hN.big N.content hN.content N.nnfO N.pg n f order ho
  have hok := opsOk_one (σ := σ) hf s
  rcases runNew_spec hgr h N.nnfC order.length sz hsz order _ hok with ⟨_, h2⟩ | ⟨st, own, hrun, -, -, -, -⟩
  · exact absurd (h2 order (fun x hx => hx) (fun o ho x hx => by
      rw [List.mem_singleton.1 ho] at hx
      exact (hmem x).2 (.inl hx))) (Nat.lt_irrefl _)
  obtain ⟨hl, hbdd⟩ := runNew_some hh _ hok hrun
  obtain ⟨a, ha⟩ := hbdd 0 _ rfl rfl
  have ha : st.out = [.bdd a] := by
    rcases hout : st.out with _ | ⟨x, _ | ⟨y, l⟩⟩
    · rw [hout] at ha; cases ha
    · rw [hout] at ha; cases ha; rfl
    · rw [hout] at hl; simp at hl
  obtain ⟨φ, r1, r2, r3, r4⟩ := compute_read hgr h cons hsz hf s hrun ha cnf
  refine ⟨if cnf then φ else NF.nnf cons N.enc (tNot φ) true, ?_, ?_, ?_⟩
  · cases cnf with
    | true => exact r2
    | false => exact neg_dnf r2
  · intro v
    cases cnf with
    | true => simp [r3]
    | false => rw [if_neg (by simp), eval_neg (.inr r2), r3]; simp
  · intro hu
    obtain ⟨u, hu⟩ := Option.isSome_iff_exists.1 hu
    unfold computeNF
    split
    · exact ⟨_, rfl⟩
    · exact ⟨_, rfl⟩
    · exact ⟨_, rfl⟩
    · split
      · exact ⟨_, rfl⟩
      · rw [computeBdd, ho, Option.bind_some, hrun, Option.bind_some]
        simp only [ha, r1, Option.bind_some]
        cases cnf with
        | true => simp only [if_true] at hu ⊢; rw [hu]; exact ⟨_, rfl⟩
        | false => simp only [Bool.false_eq_true, if_false] at hu ⊢; rw [hu]; exact ⟨_, rfl⟩

/-- C59: it is false that `DNF` of the package returns for every formula (C58_force_returns_false) -/
theorem C59_returns_false : ∃ f : Fm Nat, ∀ (P : Par) (h : σ → Bool × σ) (big : List Nat → List Nat → List Nat) (enc nnfC : Fm Nat → Fm Nat)
    (srt : List (Lit Nat) → List (Lit Nat)) (cons : Bool) (sz n : Nat) (s : σ),
    computeNF P h ⟨big, Order.natContent, fun f => NF.nnf cons enc f true, id, nnfC, enc, srt⟩ cons sz n false f s = none := by
  refine ⟨Order.loopCnf, fun P h big enc nnfC srt cons sz n s => ?_⟩
  have h1 := Order.loop_force cons enc big id rfl n
  have h2 : hasNormalform false Order.loopCnf = false := by decide +kernel
  show (if hasNormalform false Order.loopCnf then some (some Order.loopCnf) else computeBdd P h _ cons sz n false Order.loopCnf s) = none
  rw [h2, if_neg (by simp), computeBdd, h1, Option.bind_none]

/-! ### examples -/

def exNPar : NPar Nat := ⟨fun _ x => x, Order.natContent, id, id, id, id, id⟩

example : exNPar.Ok := ⟨fun _ _ => .refl _, Order.natContent_spec, fun _ _ => Iff.rfl⟩
example : Order.forceOrder exNPar.big exNPar.content exNPar.nnfO exNPar.pg 5 (.or [.and [exP 0, exP 1], exP 2]) = some [0, 1, 2] := by decide +kernel
/-- a formula that is not in CNF: its CNF has the two paths to the constant false of the BDD -/
example : Compilable exNPar.nnfC (.or [.and [exP 0, exP 1], exP 2]) := by simp [Compilable, Ok, OkL, exP]
example : computeNF (exPar 3) exH exNPar true 10 5 true (.or [.and [exP 0, exP 1], exP 2]) () =
    some (some (.and [.or [exP 0, exP 2], .or [exN 0, exP 2, exP 1]])) := by decide +kernel
example : ((computeNF (exPar 3) exH exNPar true 10 5 false (.and [.or [exP 0, exP 1], exP 2]) ()).bind id).map Spec.isDNF = some true := by decide +kernel
example : computeNF (exPar 3) exH exNPar true 10 5 false (.and [.or [exP 0, exP 1], exP 2]) () ≠ some (some (.and [.or [exP 0, exP 1], exP 2])) := by decide +kernel

end Verif.Bdd
