import Verif.Transform.Model
import Verif.Assignment.Props
import Verif.Encoding.CCProps
/-!
# Properties of the transformations (C34, C35)
-/
namespace Verif.Transform
open Verif Verif.Tree Verif.Assignment Verif.Enc
variable {α : Type} [DecidableEq α]
set_option linter.unusedSectionVars false

/-! ### C34: substitution -/

/-- the truth value of a variable after substitution -/
def subVal (σ : α → Option (Fm α)) (v : α → Bool) (x : α) : Bool :=
  match σ x with
  | some g => g.eval v
  | none => v x

mutual
/-- the variables occurring in cardinality and pseudo-Boolean constraints of a formula -/
def pbVars : Fm α → List α
  | .cc _ _ xs => xs
  | .pbc _ _ ts => ts.map (·.2.var)
  | .not f => pbVars f
  | .and fs => pbVarsL fs
  | .or fs => pbVarsL fs
  | .impl f g => pbVars f ++ pbVars g
  | .equiv f g => pbVars f ++ pbVars g
  | _ => []
def pbVarsL : List (Fm α) → List α
  | [] => []
  | f :: fs => pbVars f ++ pbVarsL fs
end

/-- constants and literals can be substituted in constraints -/
def simple : Fm α → Bool
  | .tru | .fls | .lit _ => true
  | _ => false

theorem pbVarsL_eq : ∀ fs : List (Fm α), pbVarsL fs = fs.flatMap pbVars
  | [] => rfl
  | f :: fs => by rw [pbVarsL, pbVarsL_eq fs]; rfl

theorem substLit_eval (σ : α → Option (Fm α)) (v : α → Bool) (l : Lit α) : (substLit σ l).eval v = l.eval (subVal σ v) := by
  unfold substLit
  cases h : σ l.var with
  | none => simp [Lit.eval, subVal, h]
  | some g => cases hp : l.pos <;> simp [Lit.eval, subVal, h, hp]

theorem substFold_eval (σ : α → Option (Fm α)) (v : α → Bool) : ∀ (ts : List (Int × Lit α)) (r r' : SAcc α), foldOpt (substStep σ) r ts = some r' →
    linSum v r'.terms + r'.lhsFixed = linSum v r.terms + r.lhsFixed + linSum (subVal σ v) ts
  | [], r, r', h => by simp only [foldOpt, Option.some.injEq] at h; subst h; simp [linSum]
  | t :: ts, r, r', h => by
    simp only [foldOpt] at h
    cases hs : substStep σ r t with
    | none => simp [hs] at h
    | some r1 =>
      rw [hs] at h
      rw [substFold_eval σ v ts r1 r' h]
      obtain ⟨a, l⟩ := t
      have e : l.eval (subVal σ v) = (substLit σ l).eval v := (substLit_eval σ v l).symm
      rw [linSum, e]
      unfold substStep at hs
      unfold substLit
      dsimp only at hs ⊢
      split at hs
      · rename_i h0
        cases hs; rw [h0]; simp only [Assignment.linSum_append, linSum, Fm.eval_lit]; omega
      · rename_i h0
        cases hs; rw [h0]; cases hp : l.pos <;> simp [tNot] <;> omega
      · rename_i h0
        cases hs; rw [h0]; cases hp : l.pos <;> simp [tNot] <;> omega
      · rename_i m h0
        cases hs; rw [h0]; simp only [Assignment.linSum_append, linSum]
        cases hp : l.pos <;> simp only [if_true, tNot, Fm.eval_lit, Bool.false_eq_true, if_false] <;> omega
      · cases hs

theorem holds_shift (c : Cmp) (a b k : Int) : c.holds a (k - b) = c.holds (a + b) k := by
  cases c <;> simp only [Cmp.holds, decide_eq_decide] <;> omega

theorem substPBC_eval {σ : α → Option (Fm α)} {c : Cmp} {k : Int} {ts : List (Int × Lit α)} {r : Fm α} (h : substPBC σ c k ts = some r) (v : α → Bool) :
    r.eval v = c.holds (linSum (subVal σ v) ts) k := by
  obtain ⟨q, hq, rfl⟩ := Option.map_eq_some_iff.1 h
  have e := substFold_eval σ v ts _ q hq
  have e0 : linSum v ([] : List (Int × Lit α)) = 0 := rfl
  simp only [e0] at e
  split
  · rename_i h0
    rw [List.isEmpty_iff] at h0
    rw [h0, e0] at e
    rw [evalCmp_eq]
    have : q.lhsFixed = linSum (subVal σ v) ts := by omega
    rw [this]
    cases c.holds (linSum (subVal σ v) ts) k <;> simp [tConst]
  · rw [eval_tPBC, holds_shift, e]; simp

theorem substL_mem {cons : Bool} {σ : α → Option (Fm α)} : ∀ {fs rs : List (Fm α)}, substL cons σ fs = some rs → List.Forall₂ (fun f r => subst cons σ f = some r) fs rs
  | [], rs, h => by simp only [substL, Option.some.injEq] at h; subst h; exact .nil
  | f :: fs, rs, h => by
    simp only [substL] at h
    cases h1 : subst cons σ f with
    | none => simp [h1] at h
    | some a =>
      cases h2 : substL cons σ fs with
      | none => simp [h1, h2] at h
      | some b => simp only [h1, h2, Option.some.injEq] at h; subst h; exact .cons h1 (substL_mem h2)

theorem all_forall2 {v w : α → Bool} : ∀ {fs rs : List (Fm α)}, List.Forall₂ (fun f r => r.eval v = f.eval w) fs rs → rs.all (Fm.eval v) = fs.all (Fm.eval w)
  | _, _, .nil => rfl
  | _, _, .cons h t => by rw [List.all_cons, List.all_cons, h, all_forall2 t]
theorem any_forall2 {v w : α → Bool} : ∀ {fs rs : List (Fm α)}, List.Forall₂ (fun f r => r.eval v = f.eval w) fs rs → rs.any (Fm.eval v) = fs.any (Fm.eval w)
  | _, _, .nil => rfl
  | _, _, .cons h t => by rw [List.any_cons, List.any_cons, h, any_forall2 t]
theorem forall2_imp {β γ : Type} {R S : β → γ → Prop} : ∀ {l : List β} {m : List γ}, List.Forall₂ R l m → (∀ a ∈ l, ∀ b, R a b → S a b) → List.Forall₂ S l m
  | _, _, .nil, _ => .nil
  | _, _, .cons h t, H => .cons (H _ (by simp) _ h) (forall2_imp t fun a ha => H a (by simp [ha]))

/-- **C34.** The substituted formula has the truth value of the original one under the assignment given by the truth values of the substituted formulas. -/
theorem C34_substitute {cons : Bool} {σ : α → Option (Fm α)} (f : Fm α) : ∀ {r : Fm α}, subst cons σ f = some r → ∀ v, r.eval v = f.eval (subVal σ v) := by
  induction f using Fm.ind with
  | hf => intro r h v; simp only [subst, Option.some.injEq] at h; subst h; simp
  | ht => intro r h v; simp only [subst, Option.some.injEq] at h; subst h; simp
  | hl l => intro r h v; simp only [subst, Option.some.injEq] at h; subst h; simp [substLit_eval]
  | hn f ih =>
    intro r h v; simp only [subst] at h
    obtain ⟨a, ha, rfl⟩ := Option.map_eq_some_iff.1 h
    simp [ih ha]
  | ha fs ih =>
    intro r h v; simp only [subst] at h
    obtain ⟨rs, hrs, rfl⟩ := Option.map_eq_some_iff.1 h
    rw [eval_tAnd, Fm.eval_and]
    exact all_forall2 (forall2_imp (substL_mem hrs) fun f hf r hr => ih f hf hr v)
  | ho fs ih =>
    intro r h v; simp only [subst] at h
    obtain ⟨rs, hrs, rfl⟩ := Option.map_eq_some_iff.1 h
    rw [eval_tOr, Fm.eval_or]
    exact any_forall2 (forall2_imp (substL_mem hrs) fun f hf r hr => ih f hf hr v)
  | hi f g h1 h2 =>
    intro r h v; simp only [subst] at h
    cases e1 : subst cons σ f with
    | none => simp [e1] at h
    | some a => cases e2 : subst cons σ g with
      | none => simp [e1, e2] at h
      | some b => simp only [e1, e2, Option.some.injEq] at h; subst h; simp [h1 e1, h2 e2]
  | he f g h1 h2 =>
    intro r h v; simp only [subst] at h
    cases e1 : subst cons σ f with
    | none => simp [e1] at h
    | some a => cases e2 : subst cons σ g with
      | none => simp [e1, e2] at h
      | some b => simp only [e1, e2, Option.some.injEq] at h; subst h; simp [h1 e1, h2 e2]
  | hc c k xs => intro r h v; rw [substPBC_eval h, Fm.eval_cc, linSum_ccTerms]
  | hp c k ts => intro r h v; rw [substPBC_eval h, Fm.eval_pbc]

theorem substStep_none {σ : α → Option (Fm α)} {r : SAcc α} {t : Int × Lit α} : substStep σ r t = none ↔ ∃ g, σ t.2.var = some g ∧ simple g = false := by
  unfold substStep
  split
  · rename_i h; simp [h]
  · rename_i h; simp [h, simple]
  · rename_i h; simp [h, simple]
  · rename_i h; simp [h, simple]
  · rename_i g h1 h2 h3 h
    refine ⟨fun _ => ⟨g, h, ?_⟩, fun _ => rfl⟩
    cases g <;> simp_all [simple]

theorem substFold_none {σ : α → Option (Fm α)} : ∀ {ts : List (Int × Lit α)} {r : SAcc α}, foldOpt (substStep σ) r ts = none ↔ ∃ t ∈ ts, ∃ g, σ t.2.var = some g ∧ simple g = false
  | [], r => by simp [foldOpt]
  | t :: ts, r => by
    simp only [foldOpt]
    cases h : substStep σ r t with
    | none => simp only [true_iff]; exact ⟨t, by simp, substStep_none.1 h⟩
    | some r1 =>
      rw [substFold_none]
      constructor
      · rintro ⟨s, hs, h⟩; exact ⟨s, by simp [hs], h⟩
      · rintro ⟨s, hs, h'⟩
        rcases List.mem_cons.1 hs with rfl | hs
        · rw [substStep_none.2 h'] at h; cases h
        · exact ⟨s, hs, h'⟩

theorem substL_none {cons : Bool} {σ : α → Option (Fm α)} : ∀ {fs : List (Fm α)}, substL cons σ fs = none ↔ ∃ f ∈ fs, subst cons σ f = none
  | [] => by simp [substL]
  | f :: fs => by
    simp only [substL]
    cases h1 : subst cons σ f with
    | none => simp [h1]
    | some a =>
      have ih := substL_none (cons := cons) (σ := σ) (fs := fs)
      cases h2 : substL cons σ fs with
      | none => rw [h2] at ih; simp only [true_iff] at ih ⊢; obtain ⟨g, hg, h⟩ := ih; exact ⟨g, by simp [hg], h⟩
      | some b =>
        rw [h2] at ih
        simp only [reduceCtorEq, false_iff] at ih ⊢
        rintro ⟨g, hg, h⟩
        rcases List.mem_cons.1 hg with rfl | hg
        · rw [h1] at h; cases h
        · exact ih ⟨g, hg, h⟩

/-- **C34.** `Substitute` returns an error exactly if a variable of a cardinality or pseudo-Boolean constraint is to be replaced by a formula which is
neither a literal nor a constant. -/
theorem C34_error {cons : Bool} {σ : α → Option (Fm α)} (f : Fm α) : subst cons σ f = none ↔ ∃ x ∈ pbVars f, ∃ g, σ x = some g ∧ simple g = false := by
  induction f using Fm.ind with
  | hf => simp [subst, pbVars]
  | ht => simp [subst, pbVars]
  | hl l => simp [subst, pbVars]
  | hn f ih => simp [subst, pbVars, ih]
  | ha fs ih =>
    simp only [subst, Option.map_eq_none_iff, substL_none, pbVars, pbVarsL_eq, List.mem_flatMap]
    constructor
    · rintro ⟨f, hf, h⟩; obtain ⟨x, hx, h⟩ := (ih f hf).1 h; exact ⟨x, ⟨f, hf, hx⟩, h⟩
    · rintro ⟨x, ⟨f, hf, hx⟩, h⟩; exact ⟨f, hf, (ih f hf).2 ⟨x, hx, h⟩⟩
  | ho fs ih =>
    simp only [subst, Option.map_eq_none_iff, substL_none, pbVars, pbVarsL_eq, List.mem_flatMap]
    constructor
    · rintro ⟨f, hf, h⟩; obtain ⟨x, hx, h⟩ := (ih f hf).1 h; exact ⟨x, ⟨f, hf, hx⟩, h⟩
    · rintro ⟨x, ⟨f, hf, hx⟩, h⟩; exact ⟨f, hf, (ih f hf).2 ⟨x, hx, h⟩⟩
  | hi f g h1 h2 =>
    have : subst cons σ (.impl f g) = none ↔ subst cons σ f = none ∨ subst cons σ g = none := by
      simp only [subst]
      cases subst cons σ f <;> cases subst cons σ g <;> simp
    rw [this, h1, h2]
    simp only [pbVars, List.mem_append, or_and_right, exists_or]
  | he f g h1 h2 =>
    have : subst cons σ (.equiv f g) = none ↔ subst cons σ f = none ∨ subst cons σ g = none := by
      simp only [subst]
      cases subst cons σ f <;> cases subst cons σ g <;> simp
    rw [this, h1, h2]
    simp only [pbVars, List.mem_append, or_and_right, exists_or]
  | hc c k xs =>
    simp only [subst, substPBC, Option.map_eq_none_iff, substFold_none, pbVars, ccTerms, List.mem_map]
    constructor
    · rintro ⟨_, ⟨x, hx, rfl⟩, h⟩; exact ⟨x, hx, h⟩
    · rintro ⟨x, hx, h⟩; exact ⟨_, ⟨x, hx, rfl⟩, h⟩
  | hp c k ts =>
    simp only [subst, substPBC, Option.map_eq_none_iff, substFold_none, pbVars, List.mem_map]
    constructor
    · rintro ⟨t, ht, h⟩; exact ⟨_, ⟨t, ht, rfl⟩, h⟩
    · rintro ⟨_, ⟨t, ht, rfl⟩, h⟩; exact ⟨t, ht, h⟩

/-- the variables which replace a variable -/
def subVars (σ : α → Option (Fm α)) (x : α) : List α :=
  match σ x with
  | some g => g.vars
  | none => [x]

theorem substLit_vars {σ : α → Option (Fm α)} {l : Lit α} : ∀ y ∈ (substLit σ l).vars, y ∈ subVars σ l.var := by
  unfold substLit subVars
  intro y hy
  cases h : σ l.var with
  | none => simpa [h] using hy
  | some g =>
    rw [h] at hy
    dsimp only at hy ⊢
    split at hy
    · exact hy
    · rwa [vars_tNot] at hy

theorem substFold_vars (σ : α → Option (Fm α)) : ∀ (ts : List (Int × Lit α)) (r r' : SAcc α), foldOpt (substStep σ) r ts = some r' →
    ∀ t ∈ r'.terms, t ∈ r.terms ∨ ∃ s ∈ ts, t.2.var ∈ subVars σ s.2.var
  | [], r, r', h => by simp only [foldOpt, Option.some.injEq] at h; subst h; intro t ht; exact .inl ht
  | t :: ts, r, r', h => by
    simp only [foldOpt] at h
    cases hs : substStep σ r t with
    | none => simp [hs] at h
    | some r1 =>
      rw [hs] at h
      intro q hq
      rcases substFold_vars σ ts r1 r' h q hq with h1 | ⟨s, hs, h1⟩
      · have : q ∈ r.terms ∨ q.2.var ∈ subVars σ t.2.var := by
          unfold substStep at hs
          unfold subVars
          split at hs <;> rename_i h0
          · cases hs; rw [h0]; simp only [List.mem_append, List.mem_singleton] at h1
            rcases h1 with h1 | rfl
            · exact .inl h1
            · exact .inr (by simp)
          · cases hs; rw [h0]; exact .inl (by split at h1 <;> exact h1)
          · cases hs; rw [h0]; exact .inl (by split at h1 <;> exact h1)
          · cases hs; rw [h0]; simp only [List.mem_append, List.mem_singleton] at h1
            rcases h1 with h1 | rfl
            · exact .inl h1
            · exact .inr (by dsimp only; split <;> simp [Lit.neg])
          · cases hs
        rcases this with h | h
        · exact .inl h
        · exact .inr ⟨t, by simp, h⟩
      · exact .inr ⟨s, by simp [hs], h1⟩

theorem substPBC_vars {σ : α → Option (Fm α)} {c : Cmp} {k : Int} {ts : List (Int × Lit α)} {r : Fm α} (h : substPBC σ c k ts = some r) :
    ∀ y ∈ r.vars, ∃ t ∈ ts, y ∈ subVars σ t.2.var := by
  obtain ⟨q, hq, rfl⟩ := Option.map_eq_some_iff.1 h
  intro y hy
  split at hy
  · rw [vars_tConst] at hy; cases hy
  · have hy' := vars_tPBC _ _ _ y hy
    obtain ⟨t, ht, rfl⟩ := hy'
    rcases substFold_vars σ ts _ q hq t ht with h | h
    · cases h
    · exact h

theorem exists_forall2 {β γ : Type} {R : β → γ → Prop} : ∀ {l : List β} {m : List γ}, List.Forall₂ R l m → ∀ b ∈ m, ∃ a ∈ l, R a b
  | _, _, .nil, _, hb => by cases hb
  | _, _, .cons h t, b, hb => by
    rcases List.mem_cons.1 hb with rfl | hb
    · exact ⟨_, by simp, h⟩
    · obtain ⟨a, ha, hr⟩ := exists_forall2 t b hb; exact ⟨a, by simp [ha], hr⟩

/-- **C34.** The variables of the substituted formula replace variables of the original one; in particular a replaced variable remains only if it occurs
in one of the substituted formulas. -/
theorem C34_vars {cons : Bool} {σ : α → Option (Fm α)} (f : Fm α) : ∀ {r : Fm α}, subst cons σ f = some r → ∀ y ∈ r.vars, ∃ x ∈ f.vars, y ∈ subVars σ x := by
  induction f using Fm.ind with
  | hf => intro r h y; simp only [subst, Option.some.injEq] at h; subst h; simp
  | ht => intro r h y; simp only [subst, Option.some.injEq] at h; subst h; simp
  | hl l => intro r h y hy; simp only [subst, Option.some.injEq] at h; subst h; exact ⟨l.var, by simp, substLit_vars y hy⟩
  | hn f ih =>
    intro r h y hy; simp only [subst] at h
    obtain ⟨a, ha, rfl⟩ := Option.map_eq_some_iff.1 h
    obtain ⟨x, hx, h⟩ := ih ha y (by rwa [vars_tNot] at hy)
    exact ⟨x, by simpa using hx, h⟩
  | ha fs ih =>
    intro r h y hy; simp only [subst] at h
    obtain ⟨rs, hrs, rfl⟩ := Option.map_eq_some_iff.1 h
    obtain ⟨g, hg, hy⟩ := vars_tAnd cons _ y hy
    obtain ⟨f, hf, hs⟩ := exists_forall2 (substL_mem hrs) g hg
    obtain ⟨x, hx, h⟩ := ih f hf hs y hy
    exact ⟨x, by simp only [Fm.vars_and, List.mem_flatMap]; exact ⟨f, hf, hx⟩, h⟩
  | ho fs ih =>
    intro r h y hy; simp only [subst] at h
    obtain ⟨rs, hrs, rfl⟩ := Option.map_eq_some_iff.1 h
    obtain ⟨g, hg, hy⟩ := vars_tOr cons _ y hy
    obtain ⟨f, hf, hs⟩ := exists_forall2 (substL_mem hrs) g hg
    obtain ⟨x, hx, h⟩ := ih f hf hs y hy
    exact ⟨x, by simp only [Fm.vars_or, List.mem_flatMap]; exact ⟨f, hf, hx⟩, h⟩
  | hi f g h1 h2 =>
    intro r h y hy; simp only [subst] at h
    cases e1 : subst cons σ f with
    | none => simp [e1] at h
    | some a => cases e2 : subst cons σ g with
      | none => simp [e1, e2] at h
      | some b =>
        simp only [e1, e2, Option.some.injEq] at h; subst h
        rcases vars_tImpl cons a b y hy with hy | hy
        · obtain ⟨x, hx, h⟩ := h1 e1 y hy; exact ⟨x, by simp [hx], h⟩
        · obtain ⟨x, hx, h⟩ := h2 e2 y hy; exact ⟨x, by simp [hx], h⟩
  | he f g h1 h2 =>
    intro r h y hy; simp only [subst] at h
    cases e1 : subst cons σ f with
    | none => simp [e1] at h
    | some a => cases e2 : subst cons σ g with
      | none => simp [e1, e2] at h
      | some b =>
        simp only [e1, e2, Option.some.injEq] at h; subst h
        rcases vars_tEquiv cons a b y hy with hy | hy
        · obtain ⟨x, hx, h⟩ := h1 e1 y hy; exact ⟨x, by simp [hx], h⟩
        · obtain ⟨x, hx, h⟩ := h2 e2 y hy; exact ⟨x, by simp [hx], h⟩
  | hc c k xs =>
    intro r h y hy
    obtain ⟨t, ht, h⟩ := substPBC_vars h y hy
    simp only [ccTerms, List.mem_map] at ht
    obtain ⟨x, hx, rfl⟩ := ht
    exact ⟨x, by simpa using hx, h⟩
  | hp c k ts =>
    intro r h y hy
    obtain ⟨t, ht, h⟩ := substPBC_vars h y hy
    exact ⟨t.2.var, by simp only [Fm.vars_pbc, List.mem_map]; exact ⟨t, ht, rfl⟩, h⟩

/-- a substitution of three variables in `(a → b) ∧ (2a - ¬c ≥ 1)` -/
def exσ : Nat → Option (Fm Nat)
  | 0 => some (.lit ⟨5, false⟩)
  | 1 => some (.and [.lit ⟨6, true⟩, .lit ⟨7, true⟩])
  | 2 => some .fls
  | _ => none
example : subst true exσ (.and [.impl (.lit ⟨0, true⟩) (.lit ⟨1, true⟩), .pbc .ge 1 [(2, ⟨0, true⟩), (-1, ⟨2, false⟩)]]) =
    some (.and [.impl (.lit ⟨5, false⟩) (.and [.lit ⟨6, true⟩, .lit ⟨7, true⟩]), .pbc .ge 2 [(2, ⟨5, false⟩)]]) := by rfl
example : subst true exσ (.cc .le 1 [1, 3]) = none := (C34_error _).2 ⟨1, by decide, _, rfl, rfl⟩

/-! ### literal substitution -/

/-- value of a linear sum if every literal has its own truth value -/
def litSum (g : Lit α → Bool) : List (Int × Lit α) → Int
  | [] => 0
  | (a, l) :: ts => (if g l then a else 0) + litSum g ts

mutual
/-- evaluation with a truth value for every literal, independent of the one of its negation -/
def litEval (g : Lit α → Bool) : Fm α → Bool
  | .fls => false
  | .tru => true
  | .lit l => g l
  | .not f => !(litEval g f)
  | .and fs => litEvalAll g fs
  | .or fs => litEvalAny g fs
  | .impl f h => !(litEval g f) || litEval g h
  | .equiv f h => litEval g f == litEval g h
  | .cc c k xs => c.holds (litSum g (xs.map fun x => (1, ⟨x, true⟩))) k
  | .pbc c k ts => c.holds (litSum g ts) k
def litEvalAll (g : Lit α → Bool) : List (Fm α) → Bool
  | [] => true
  | f :: fs => litEval g f && litEvalAll g fs
def litEvalAny (g : Lit α → Bool) : List (Fm α) → Bool
  | [] => false
  | f :: fs => litEval g f || litEvalAny g fs
end

theorem litEvalAll_eq (g : Lit α → Bool) : ∀ fs : List (Fm α), litEvalAll g fs = fs.all (litEval g)
  | [] => rfl
  | f :: fs => by rw [litEvalAll, litEvalAll_eq g fs]; rfl
theorem litEvalAny_eq (g : Lit α → Bool) : ∀ fs : List (Fm α), litEvalAny g fs = fs.any (litEval g)
  | [] => rfl
  | f :: fs => by rw [litEvalAny, litEvalAny_eq g fs]; rfl
theorem substLitsL_eq (cons : Bool) (σ : Lit α → Option (Lit α)) : ∀ fs : List (Fm α), substLitsL cons σ fs = fs.map (substLits cons σ)
  | [] => rfl
  | f :: fs => by rw [substLitsL, substLitsL_eq cons σ fs]; rfl
theorem linSum_litSub (v : α → Bool) (m : Lit α → Lit α) : ∀ ts : List (Int × Lit α), linSum v (ts.map fun t => (t.1, m t.2)) = litSum (fun l => (m l).eval v) ts
  | [] => rfl
  | (a, l) :: ts => by rw [List.map_cons, linSum, litSum, linSum_litSub v m ts]

/-- the truth value of a literal after literal substitution: an entry for the literal itself goes first, then, for negative literals only, the
negation of the entry for its variable -/
def litVal (σ : Lit α → Option (Lit α)) (v : α → Bool) (l : Lit α) : Bool :=
  match σ l, l.pos, σ ⟨l.var, true⟩ with
  | some m, _, _ => m.eval v
  | none, false, some m => !(m.eval v)
  | _, _, _ => l.eval v

theorem litSub_eval (σ : Lit α → Option (Lit α)) (v : α → Bool) (l : Lit α) : (litSub σ l).eval v = litVal σ v l := by
  obtain ⟨x, p⟩ := l
  unfold litSub litVal
  cases h : σ ⟨x, p⟩ with
  | some m => rfl
  | none =>
    cases p with
    | true => simp [h]
    | false =>
      have e : (⟨x, false⟩ : Lit α).neg = ⟨x, true⟩ := rfl
      dsimp only
      rw [e]
      cases h2 : σ ⟨x, true⟩ <;> simp

/-- **C34 (literals).** `SubstituteLiterals` gives the formula which is evaluated with the truth values of the replaced literals. -/
theorem C34_literals (cons : Bool) (σ : Lit α → Option (Lit α)) (f : Fm α) (v : α → Bool) : (substLits cons σ f).eval v = litEval (litVal σ v) f := by
  have hσ : (fun l => (litSub σ l).eval v) = litVal σ v := funext (litSub_eval σ v)
  induction f using Fm.ind with
  | hf => simp [substLits, litEval]
  | ht => simp [substLits, litEval]
  | hl l => simp [substLits, litEval, litSub_eval]
  | hn f ih => simp [substLits, litEval, ih]
  | ha fs ih =>
    rw [substLits, eval_tAnd, litEval, litEvalAll_eq, substLitsL_eq, List.all_map]
    rw [Bool.eq_iff_iff, List.all_eq_true, List.all_eq_true]
    exact forall_congr' fun f => forall_congr' fun hf => by rw [Function.comp, ih f hf]
  | ho fs ih =>
    rw [substLits, eval_tOr, litEval, litEvalAny_eq, substLitsL_eq, List.any_map]
    rw [Bool.eq_iff_iff, List.any_eq_true, List.any_eq_true]
    exact exists_congr fun f => and_congr_right fun hf => by rw [Function.comp, ih f hf]
  | hi f g h1 h2 => simp [substLits, litEval, h1, h2]
  | he f g h1 h2 => simp [substLits, litEval, h1, h2]
  | hc c k xs => rw [substLits, eval_tPBC, litEval, linSum_litSub, hσ]; rfl
  | hp c k ts => rw [substLits, eval_tPBC, litEval, linSum_litSub, hσ]

def exLitσ : Lit Nat → Option (Lit Nat)
  | ⟨0, true⟩ => some ⟨1, true⟩
  | ⟨0, false⟩ => some ⟨2, true⟩
  | ⟨3, true⟩ => some ⟨4, false⟩
  | _ => none
example : substLits true exLitσ (.or [.lit ⟨0, false⟩, .and [.lit ⟨0, true⟩, .lit ⟨3, false⟩]]) = .or [.lit ⟨2, true⟩, .and [.lit ⟨1, true⟩, .lit ⟨4, true⟩]] := by rfl

/-! ### anonymizer -/

/-- an anonymizer after a number of calls -/
inductive AnonReach (cons : Bool) (name : Nat → α) (order : Fm α → List α) : Anon α → Prop
  | init : AnonReach cons name order anonInit
  | step {a : Anon α} (f : Fm α) : AnonReach cons name order a → AnonReach cons name order (anonymize cons name order a f).2

/-- the map is an injective renaming to generated names -/
structure AnonInv (name : Nat → α) (a : Anon α) : Prop where
  names : ∀ x y, a.map.lookup x = some y → ∃ i, i < a.counter ∧ y = name i
  inj : ∀ x x' y, a.map.lookup x = some y → a.map.lookup x' = some y → x = x'

theorem anonVar_inv {name : Nat → α} (hn : ∀ i j, name i = name j → i = j) {a : Anon α} (h : AnonInv name a) (x : α) :
    AnonInv name (anonVar name a x) ∧ ∀ z y, a.map.lookup z = some y → (anonVar name a x).map.lookup z = some y := by
  unfold anonVar
  cases hx : a.map.lookup x with
  | some y => exact ⟨h, fun _ _ h => h⟩
  | none =>
    have hl : ∀ z, ((x, name a.counter) :: a.map).lookup z = if z = x then some (name a.counter) else a.map.lookup z := by
      intro z
      rw [List.lookup_cons]
      by_cases e : z = x
      · subst e; simp
      · have : (z == x) = false := by simpa using e
        rw [this, if_neg e]
    refine ⟨⟨fun z y hz => ?_, fun z z' y hz hz' => ?_⟩, fun z y hz => ?_⟩
    · rw [hl] at hz
      split at hz
      · cases hz; exact ⟨a.counter, Nat.lt_succ_self _, rfl⟩
      · obtain ⟨i, hi, e⟩ := h.names z y hz; exact ⟨i, Nat.lt_succ_of_lt hi, e⟩
    · rw [hl] at hz hz'
      split at hz <;> split at hz'
      · rename_i e e'; rw [e, e']
      · cases hz
        obtain ⟨i, hi, e⟩ := h.names z' _ hz'
        have := hn _ _ e; omega
      · cases hz'
        obtain ⟨i, hi, e⟩ := h.names z _ hz
        have := hn _ _ e; omega
      · exact h.inj z z' y hz hz'
    · show List.lookup z _ = _
      rw [hl]
      split
      · rename_i e; rw [e, hx] at hz; cases hz
      · exact hz

theorem anonVars_inv {name : Nat → α} (hn : ∀ i j, name i = name j → i = j) : ∀ (xs : List α) {a : Anon α}, AnonInv name a →
    AnonInv name (xs.foldl (anonVar name) a) ∧ (∀ z y, a.map.lookup z = some y → (xs.foldl (anonVar name) a).map.lookup z = some y) ∧
      ∀ x ∈ xs, ∃ y, (xs.foldl (anonVar name) a).map.lookup x = some y
  | [], a, h => ⟨h, fun _ _ h => h, by simp⟩
  | x :: xs, a, h => by
    obtain ⟨h1, h2⟩ := anonVar_inv hn h x
    obtain ⟨h3, h4, h5⟩ := anonVars_inv hn xs h1
    refine ⟨h3, fun z y hz => h4 z y (h2 z y hz), fun z hz => ?_⟩
    rcases List.mem_cons.1 hz with rfl | hz
    · have : ∃ y, (anonVar name a z).map.lookup z = some y := by
        unfold anonVar
        cases hx : a.map.lookup z with
        | some y => exact ⟨y, hx⟩
        | none => exact ⟨name a.counter, by simp⟩
      obtain ⟨y, hy⟩ := this
      exact ⟨y, h4 z y hy⟩
    · exact h5 z hz

theorem anonReach_inv {cons : Bool} {name : Nat → α} (hn : ∀ i j, name i = name j → i = j) {order : Fm α → List α} {a : Anon α} (h : AnonReach cons name order a) : AnonInv name a := by
  induction h with
  | init => exact ⟨by simp [anonInit], by simp [anonInit]⟩
  | step f _ ih =>
    unfold anonymize
    dsimp only
    split
    · exact ih
    · exact (anonVars_inv hn (order f) ih).1

theorem pbVars_sub (f : Fm α) : ∀ x ∈ pbVars f, x ∈ f.vars := by
  induction f using Fm.ind with
  | hf => simp [pbVars]
  | ht => simp [pbVars]
  | hl l => simp [pbVars]
  | hn f ih => simpa [pbVars] using ih
  | ha fs ih =>
    simp only [pbVars, pbVarsL_eq, List.mem_flatMap, Fm.vars_and]
    rintro x ⟨f, hf, hx⟩; exact ⟨f, hf, ih f hf x hx⟩
  | ho fs ih =>
    simp only [pbVars, pbVarsL_eq, List.mem_flatMap, Fm.vars_or]
    rintro x ⟨f, hf, hx⟩; exact ⟨f, hf, ih f hf x hx⟩
  | hi f g h1 h2 =>
    simp only [pbVars, Fm.vars_impl, List.mem_append]
    rintro x (h | h)
    · exact .inl (h1 x h)
    · exact .inr (h2 x h)
  | he f g h1 h2 =>
    simp only [pbVars, Fm.vars_equiv, List.mem_append]
    rintro x (h | h)
    · exact .inl (h1 x h)
    · exact .inr (h2 x h)
  | hc c k xs => simp [pbVars]
  | hp c k ts => simp [pbVars]

/-- **C34 (anonymizer).** After any number of calls, anonymizing a formula is an injective renaming of its variables to generated names: there is a map
`ρ`, injective on the variables of the formula, such that the result has the truth value of the formula with the values of the renamed variables.
The renaming is the same in later calls. -/
theorem C34_anonymize {cons : Bool} {name : Nat → α} (hn : ∀ i j, name i = name j → i = j) {order : Fm α → List α} (ho : ∀ f x, x ∈ order f ↔ x ∈ f.vars) {a : Anon α}
    (h : AnonReach cons name order a) (f : Fm α) :
    ∃ ρ : α → α, (∀ x ∈ f.vars, ∃ i, ρ x = name i) ∧ (∀ x ∈ f.vars, ∀ y ∈ f.vars, ρ x = ρ y → x = y) ∧
      (∀ x y, a.map.lookup x = some y → x ∈ f.vars → ρ x = y) ∧
      (∀ v, (anonymize cons name order a f).1.eval v = f.eval (fun x => v (ρ x))) ∧ ∀ y ∈ (anonymize cons name order a f).1.vars, ∃ x ∈ f.vars, y = ρ x := by
  have hi := anonReach_inv hn h
  obtain ⟨h1, h2, h3⟩ := anonVars_inv hn (order f) hi
  by_cases he : (order f).isEmpty
  · have hv : f.vars = [] := by
      rw [List.eq_nil_iff_forall_not_mem]
      intro x hx
      rw [List.isEmpty_iff] at he
      rw [← ho, he] at hx; simp at hx
    have e : (anonymize cons name order a f).1 = f := by
      unfold anonymize
      dsimp only
      rw [if_pos he]
    rw [e]
    exact ⟨id, by simp [hv], by simp [hv], by simp [hv], fun v => rfl, by simp [hv]⟩
  · unfold anonymize
    dsimp only
    rw [if_neg he]
    generalize (order f).foldl (anonVar name) a = b at *
    have hl : ∀ x ∈ f.vars, ∃ y, b.map.lookup x = some y := fun x hx => h3 x ((ho f x).2 hx)
    refine ⟨fun x => (b.map.lookup x).getD x, fun x hx => ?_, fun x hx y hy e => ?_, fun x y hxy _ => ?_, fun v => ?_, fun z hz => ?_⟩
    · obtain ⟨y, hy⟩ := hl x hx
      obtain ⟨i, _, e⟩ := h1.names x y hy
      exact ⟨i, by dsimp only; rw [hy, Option.getD_some, e]⟩
    · obtain ⟨x', hx'⟩ := hl x hx
      obtain ⟨y', hy'⟩ := hl y hy
      dsimp only at e
      rw [hx', hy', Option.getD_some, Option.getD_some] at e
      subst e
      exact h1.inj x y _ hx' hy'
    · dsimp only; rw [h2 x y hxy, Option.getD_some]
    · cases hs : subst cons (anonSubst b) f with
      | none =>
        obtain ⟨x, _, g, hg, hsim⟩ := (C34_error f).1 hs
        obtain ⟨y, _, rfl⟩ := Option.map_eq_some_iff.1 hg
        simp [simple] at hsim
      | some r =>
        rw [Option.getD_some, C34_substitute f hs v]
        refine Fm.eval_congr f fun x hx => ?_
        obtain ⟨y, hy⟩ := hl x hx
        simp [subVal, anonSubst, hy, Lit.eval]
    · cases hs : subst cons (anonSubst b) f with
      | none => rw [hs] at hz; simp at hz
      | some r =>
        rw [hs, Option.getD_some] at hz
        obtain ⟨x, hx, h⟩ := C34_vars f hs z hz
        obtain ⟨y, hy⟩ := hl x hx
        refine ⟨x, hx, ?_⟩
        simpa [subVars, anonSubst, hy] using h

example : (anonymize true (· + 100) Fm.vars ⟨[(0, 100)], 1⟩ (.or [.lit ⟨100, true⟩, .lit ⟨0, false⟩])).1 = .or [.lit ⟨101, true⟩, .lit ⟨100, false⟩] := by rfl

/-! ### expansion of at-most-one and exactly-one constraints -/

theorem expandCC_eval {cons : Bool} {c : Cmp} {k : Int} {xs : List α} {r : Fm α} (h : expandCC cons c k xs = some r) (v : α → Bool) : r.eval v = (Fm.cc c k xs).eval v := by
  unfold expandCC at h
  split at h
  · rename_i hk
    obtain ⟨q, hq, rfl⟩ := Option.map_eq_some_iff.1 h
    have E := C13_encodeCC_partial hq
    have hk0 : (k.toNat : Int) = k := by omega
    rw [hk0] at E
    have hq2 : q.2 = 0 := by
      rcases hk with ⟨rfl, rfl⟩ | ⟨rfl, rfl⟩ | ⟨rfl, rfl⟩
      · simp only [encodeCC, Int.toNat_one, if_true, amo] at hq
        split at hq <;> cases hq <;> rfl
      · simp only [encodeCC, Int.reduceToNat, if_true, amo] at hq
        rw [if_neg (by decide)] at hq
        split at hq <;> cases hq <;> rfl
      · simp only [encodeCC, Int.toNat_one, if_true, exo, amo] at hq
        split at hq
        · cases hq; rfl
        · split at hq
          · cases hq; rfl
          · rw [if_neg (by omega)] at hq
            simp only [Option.map_some, Option.some.injEq] at hq
            cases hq; rfl
    have hu : ∀ (w : EV α → Bool) (cl : Clause α), cl ∈ q.1 → ((tClause (cl.filterMap userLit)).eval (fun a => w (.usr a)) = true ↔ ∃ l ∈ cl, l.eval w = true) := by
      intro w cl hcl
      rw [eval_tClause, List.any_eq_true]
      constructor
      · rintro ⟨l, hl, e⟩
        obtain ⟨m, hm, e2⟩ := List.mem_filterMap.1 hl
        refine ⟨m, hm, ?_⟩
        obtain ⟨x, p⟩ := m
        cases x with
        | usr a => simp only [userLit, Option.some.injEq] at e2; subst e2; exact e
        | aux n => simp [userLit] at e2
      · rintro ⟨m, hm, e⟩
        rcases E.vars cl hcl m hm with ⟨a, _, ea⟩ | ⟨n, _, hn⟩
        · obtain ⟨x, p⟩ := m
          simp only at ea; subst ea
          exact ⟨⟨a, p⟩, List.mem_filterMap.2 ⟨_, hm, rfl⟩, e⟩
        · omega
    rw [eval_tAnd, List.all_map, Bool.eq_iff_iff, List.all_eq_true]
    constructor
    · intro hall
      have := E.sound (fun | .usr a => v a | .aux _ => false) (fun cl hcl => (hu _ cl hcl).1 (hall cl hcl))
      exact this
    · intro hv cl hcl
      obtain ⟨w, hw1, _, hw2⟩ := E.complete v (fun _ => false) hv
      have := (hu w cl hcl).2 (hw2 cl hcl)
      have e : (fun a => w (.usr a)) = v := funext hw1
      rw [e] at this
      exact this
  · cases h

theorem expandL_mem {cons : Bool} : ∀ {fs rs : List (Fm α)}, expandL cons fs = some rs → List.Forall₂ (fun f r => expand cons f = some r) fs rs
  | [], rs, h => by simp only [expandL, Option.some.injEq] at h; subst h; exact .nil
  | f :: fs, rs, h => by
    simp only [expandL] at h
    cases h1 : expand cons f with
    | none => simp [h1] at h
    | some a =>
      cases h2 : expandL cons fs with
      | none => simp [h1, h2] at h
      | some b => simp only [h1, h2, Option.some.injEq] at h; subst h; exact .cons h1 (expandL_mem h2)

/-- **C34 (pure expansion).** A formula whose at-most-one and exactly-one constraints have been expanded is equivalent to the original one. -/
theorem C34_expand {cons : Bool} (f : Fm α) : ∀ {r : Fm α}, expand cons f = some r → ∀ v, r.eval v = f.eval v := by
  induction f using Fm.ind with
  | hf => intro r h v; simp only [expand, Option.some.injEq] at h; subst h; simp
  | ht => intro r h v; simp only [expand, Option.some.injEq] at h; subst h; simp
  | hl l => intro r h v; simp only [expand, Option.some.injEq] at h; subst h; simp
  | hn f ih =>
    intro r h v; simp only [expand] at h
    obtain ⟨a, ha, rfl⟩ := Option.map_eq_some_iff.1 h
    simp [ih ha]
  | ha fs ih =>
    intro r h v; simp only [expand] at h
    obtain ⟨rs, hrs, rfl⟩ := Option.map_eq_some_iff.1 h
    rw [eval_tAnd, Fm.eval_and]
    exact all_forall2 (forall2_imp (expandL_mem hrs) fun f hf r hr => ih f hf hr v)
  | ho fs ih =>
    intro r h v; simp only [expand] at h
    obtain ⟨rs, hrs, rfl⟩ := Option.map_eq_some_iff.1 h
    rw [eval_tOr, Fm.eval_or]
    exact any_forall2 (forall2_imp (expandL_mem hrs) fun f hf r hr => ih f hf hr v)
  | hi f g h1 h2 =>
    intro r h v; simp only [expand] at h
    cases e1 : expand cons f with
    | none => simp [e1] at h
    | some a => cases e2 : expand cons g with
      | none => simp [e1, e2] at h
      | some b => simp only [e1, e2, Option.some.injEq] at h; subst h; simp [h1 e1, h2 e2]
  | he f g h1 h2 =>
    intro r h v; simp only [expand] at h
    cases e1 : expand cons f with
    | none => simp [e1] at h
    | some a => cases e2 : expand cons g with
      | none => simp [e1, e2] at h
      | some b => simp only [e1, e2, Option.some.injEq] at h; subst h; simp [h1 e1, h2 e2]
  | hc c k xs => intro r h v; exact expandCC_eval h v
  | hp c k ts => intro r h v; simp [expand] at h

mutual
/-- all constraints are at-most-one or exactly-one constraints -/
def amoExo : Fm α → Bool
  | .pbc _ _ _ => false
  | .cc c k _ => (c == .le && k == 1) || (c == .lt && k == 2) || (c == .eq && k == 1)
  | .not f => amoExo f
  | .and fs => amoExoL fs
  | .or fs => amoExoL fs
  | .impl f g => amoExo f && amoExo g
  | .equiv f g => amoExo f && amoExo g
  | _ => true
def amoExoL : List (Fm α) → Bool
  | [] => true
  | f :: fs => amoExo f && amoExoL fs
end

theorem amoExoL_eq : ∀ fs : List (Fm α), amoExoL fs = fs.all amoExo
  | [] => rfl
  | f :: fs => by rw [amoExoL, amoExoL_eq fs]; rfl

theorem expandL_some {cons : Bool} : ∀ {fs : List (Fm α)}, (expandL cons fs).isSome = fs.all fun f => (expand cons f).isSome
  | [] => rfl
  | f :: fs => by
    rw [List.all_cons, ← expandL_some]
    simp only [expandL]
    cases expand cons f <;> cases expandL cons fs <;> rfl

/-- **C34 (pure expansion).** The expansion succeeds exactly if the formula has no other constraints. -/
theorem C34_expand_error (cons : Bool) (f : Fm α) : (expand cons f).isSome = amoExo f := by
  induction f using Fm.ind with
  | hf => rfl
  | ht => rfl
  | hl l => rfl
  | hn f ih => simp [expand, amoExo, ih]
  | ha fs ih =>
    simp only [expand, Option.isSome_map, expandL_some, amoExo, amoExoL_eq]
    rw [Bool.eq_iff_iff, List.all_eq_true, List.all_eq_true]
    exact forall_congr' fun f => forall_congr' fun hf => by rw [ih f hf]
  | ho fs ih =>
    simp only [expand, Option.isSome_map, expandL_some, amoExo, amoExoL_eq]
    rw [Bool.eq_iff_iff, List.all_eq_true, List.all_eq_true]
    exact forall_congr' fun f => forall_congr' fun hf => by rw [ih f hf]
  | hi f g h1 h2 => rw [amoExo, ← h1, ← h2]; simp only [expand]; cases expand cons f <;> cases expand cons g <;> rfl
  | he f g h1 h2 => rw [amoExo, ← h1, ← h2]; simp only [expand]; cases expand cons f <;> cases expand cons g <;> rfl
  | hc c k xs =>
    simp only [expand, expandCC, amoExo]
    split
    · rename_i hk
      rcases hk with ⟨rfl, rfl⟩ | ⟨rfl, rfl⟩ | ⟨rfl, rfl⟩
      · simp only [encodeCC, Int.toNat_one, if_true, amo]
        split <;> rfl
      · simp only [encodeCC, Int.reduceToNat, if_true, amo]
        rw [if_neg (by decide)]
        split <;> rfl
      · simp only [encodeCC, Int.toNat_one, if_true, exo, amo]
        split
        · rfl
        · split
          · rfl
          · rw [if_neg (by omega)]; rfl
    · rename_i hk
      symm
      rw [Option.isSome_none, Bool.eq_false_iff]
      intro h
      simp at h
      apply hk
      revert h; cases c <;> simp
  | hp c k ts => rfl

example : expand true (.not (.cc .eq 1 [0, 1] : Fm Nat)) = some (.not (.and [.or [.lit ⟨0, false⟩, .lit ⟨1, false⟩], .or [.lit ⟨0, true⟩, .lit ⟨1, true⟩]])) := by rfl

/-! ### C35: quantifier elimination -/

theorem asg1_new (x : α) (p : Bool) : new [⟨x, p⟩] = some (asg1 x p) := by
  cases p <;> simp [asg1, new, foldOpt, addLit, empty]

/-- the assignment `v` with the value `b` for `x` -/
def upd (v : α → Bool) (x : α) (b : Bool) : α → Bool := fun y => if y = x then b else v y

theorem restrict1_eval {cons : Bool} {x : α} {b : Bool} (f : Fm α) (v : α → Bool) : (restrict cons (asg1 x b) f).eval v = f.eval (upd v x b) := by
  have h1 := C06_restrict (asg1_new x b) cons f (upd v x b) (by simp [Lit.eval, upd])
  rw [← h1]
  refine Fm.eval_congr _ fun y hy => ?_
  have := (C06_restrict_vars (asg1_new x b) cons f y hy).2 ⟨x, b⟩ (by simp)
  have : y ≠ x := fun e => this e.symm
  simp [upd, this]

/-- **C35.** `ExistentialQE` is true exactly if some assignment of the eliminated variables makes the formula true. -/
theorem C35_exists (cons : Bool) : ∀ (xs : List α) (f : Fm α) (v : α → Bool), (existsQE cons f xs).eval v = true ↔ ∃ w, (∀ y, y ∉ xs → w y = v y) ∧ f.eval w = true
  | [], f, v => by
    simp only [existsQE, List.foldl_nil, List.not_mem_nil, not_false_eq_true, true_implies]
    exact ⟨fun h => ⟨v, fun _ => rfl, h⟩, fun ⟨w, hw, h⟩ => by rwa [funext hw] at h⟩
  | x :: xs, f, v => by
    have ih := C35_exists cons xs (tOr cons [restrict cons (asg1 x true) f, restrict cons (asg1 x false) f]) v
    unfold existsQE at ih ⊢
    rw [List.foldl_cons, ih]
    constructor
    · rintro ⟨w, hw, h⟩
      simp only [eval_tOr, List.any_cons, List.any_nil, Bool.or_false, Bool.or_eq_true, restrict1_eval] at h
      rcases h with h | h
      · exact ⟨_, fun y hy => by simp only [List.mem_cons, not_or] at hy; simp [upd, hy.1, hw y hy.2], h⟩
      · exact ⟨_, fun y hy => by simp only [List.mem_cons, not_or] at hy; simp [upd, hy.1, hw y hy.2], h⟩
    · rintro ⟨w, hw, h⟩
      refine ⟨fun y => if y ∈ xs then w y else v y, fun y hy => by simp [hy], ?_⟩
      have e : upd (fun y => if y ∈ xs then w y else v y) x (w x) = w := by
        funext y
        by_cases hy : y = x
        · subst hy; simp [upd]
        · by_cases hm : y ∈ xs
          · simp [upd, hy, hm]
          · simp [upd, hy, hm, (hw y (by simp [hy, hm]))]
      simp only [eval_tOr, List.any_cons, List.any_nil, Bool.or_false, Bool.or_eq_true, restrict1_eval]
      cases hx : w x <;> rw [hx] at e
      · right; rw [e]; exact h
      · left; rw [e]; exact h

/-- **C35.** `UniversalQE` is true exactly if every assignment of the eliminated variables makes the formula true. -/
theorem C35_forall (cons : Bool) : ∀ (xs : List α) (f : Fm α) (v : α → Bool), (forallQE cons f xs).eval v = true ↔ ∀ w, (∀ y, y ∉ xs → w y = v y) → f.eval w = true
  | [], f, v => by
    simp only [forallQE, List.foldl_nil, List.not_mem_nil, not_false_eq_true, true_implies]
    exact ⟨fun h w hw => by rwa [funext hw], fun h => h v fun _ => rfl⟩
  | x :: xs, f, v => by
    have ih := C35_forall cons xs (tAnd cons [restrict cons (asg1 x true) f, restrict cons (asg1 x false) f]) v
    unfold forallQE at ih ⊢
    rw [List.foldl_cons, ih]
    simp only [eval_tAnd, List.all_cons, List.all_nil, Bool.and_true, Bool.and_eq_true, restrict1_eval]
    constructor
    · intro h w hw
      have h1 := h (fun y => if y ∈ xs then w y else v y) (fun y hy => by simp [hy])
      have e : upd (fun y => if y ∈ xs then w y else v y) x (w x) = w := by
        funext y
        by_cases hy : y = x
        · subst hy; simp [upd]
        · by_cases hm : y ∈ xs
          · simp [upd, hy, hm]
          · simp [upd, hy, hm, (hw y (by simp [hy, hm]))]
      cases hx : w x <;> rw [hx] at e
      · rw [← e]; exact h1.2
      · rw [← e]; exact h1.1
    · intro h w hw
      exact ⟨h _ fun y hy => by simp only [List.mem_cons, not_or] at hy; simp [upd, hy.1, hw y hy.2],
        h _ fun y hy => by simp only [List.mem_cons, not_or] at hy; simp [upd, hy.1, hw y hy.2]⟩

theorem restrict1_vars {cons : Bool} {x : α} {b : Bool} {f : Fm α} : ∀ y ∈ (restrict cons (asg1 x b) f).vars, y ∈ f.vars ∧ y ≠ x := fun y hy =>
  have h := C06_restrict_vars (asg1_new x b) cons f y hy
  ⟨h.1, fun e => h.2 ⟨x, b⟩ (by simp) e.symm⟩

/-- **C35.** No eliminated variable remains, and no variable is introduced. -/
theorem C35_vars (cons : Bool) : ∀ (xs : List α) (f : Fm α), (∀ y ∈ (existsQE cons f xs).vars, y ∈ f.vars ∧ y ∉ xs) ∧ (∀ y ∈ (forallQE cons f xs).vars, y ∈ f.vars ∧ y ∉ xs)
  | [], f => by simp [existsQE, forallQE]
  | x :: xs, f => by
    constructor
    · intro y hy
      have h1 := (C35_vars cons xs (tOr cons [restrict cons (asg1 x true) f, restrict cons (asg1 x false) f])).1 y hy
      obtain ⟨g, hg, h2⟩ := vars_tOr cons _ y h1.1
      simp only [List.mem_cons, List.not_mem_nil, or_false] at hg
      rcases hg with rfl | rfl <;> exact ⟨(restrict1_vars y h2).1, by simp [(restrict1_vars y h2).2, h1.2]⟩
    · intro y hy
      have h1 := (C35_vars cons xs (tAnd cons [restrict cons (asg1 x true) f, restrict cons (asg1 x false) f])).2 y hy
      obtain ⟨g, hg, h2⟩ := vars_tAnd cons _ y h1.1
      simp only [List.mem_cons, List.not_mem_nil, or_false] at hg
      rcases hg with rfl | rfl <;> exact ⟨(restrict1_vars y h2).1, by simp [(restrict1_vars y h2).2, h1.2]⟩

example : existsQE true (.and [.or [.lit ⟨0, true⟩, .lit ⟨1, true⟩], .or [.lit ⟨0, false⟩, .lit ⟨2, true⟩]] : Fm Nat) [0] = .or [.lit ⟨2, true⟩, .lit ⟨1, true⟩] := by rfl
example : forallQE true (.and [.or [.lit ⟨0, true⟩, .lit ⟨1, true⟩], .or [.lit ⟨0, false⟩, .lit ⟨2, true⟩]] : Fm Nat) [0] = .and [.lit ⟨2, true⟩, .lit ⟨1, true⟩] := by rfl

end Verif.Transform
