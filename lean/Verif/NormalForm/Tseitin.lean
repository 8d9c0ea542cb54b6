import Verif.NormalForm.TseitinModel
import Verif.NormalForm.Cond
import Verif.NormalForm.Vars
import Verif.NormalForm.Fact
import Verif.Assignment.Lemmas
/-! Correctness of the Tseitin transformation. -/
set_option linter.unusedSectionVars false
namespace Verif.NF
open Verif Verif.Tree Verif.Spec Verif.Assignment
variable {α : Type} [DecidableEq α]

/-! ### sub-formulas -/

/-- operands of an n-ary node -/
def nops : Fm α → List (Fm α)
  | .and fs => fs
  | .or fs => fs
  | _ => []

mutual
/-- compound sub-formulas of an NNF formula, itself included -/
def csubs : Fm α → List (Fm α)
  | .and fs => .and fs :: csubsL fs
  | .or fs => .or fs :: csubsL fs
  | _ => []
def csubsL : List (Fm α) → List (Fm α)
  | [] => []
  | f :: fs => csubs f ++ csubsL fs
end
omit [DecidableEq α] in
theorem csubsL_eq (fs : List (Fm α)) : csubsL fs = fs.flatMap csubs := by
  induction fs with
  | nil => rfl
  | cons f fs ih => simp [csubsL, ih]
omit [DecidableEq α] in
theorem csubs_and (fs : List (Fm α)) : csubs (.and fs) = .and fs :: fs.flatMap csubs := by rw [csubs, csubsL_eq]
omit [DecidableEq α] in
theorem csubs_or (fs : List (Fm α)) : csubs (.or fs) = .or fs :: fs.flatMap csubs := by rw [csubs, csubsL_eq]
omit [DecidableEq α] in
@[simp] theorem csubs_lit (l : Lit α) : csubs (.lit l) = [] := by simp [csubs]

/-- compound: conjunction or disjunction -/
def cmpd : Fm α → Bool
  | .and _ => true
  | .or _ => true
  | _ => false

/-- every element's operands come earlier -/
inductive BU : List (Fm α) → Prop
  | nil : BU []
  | snoc {l : List (Fm α)} {h : Fm α} : BU l → (∀ o ∈ nops h, o ∈ l) → BU (l ++ [h])

theorem lhsAdd_mem {l : List (Fm α)} {f g : Fm α} : g ∈ lhsAdd l f ↔ g ∈ l ∨ g = f := by
  unfold lhsAdd
  split
  · rename_i h
    constructor
    · exact .inl
    · rintro (h1 | rfl)
      · exact h1
      · exact h
  · simp
theorem foldl_lhsAdd_mem {g : Fm α} : ∀ {l acc : List (Fm α)}, g ∈ l.foldl lhsAdd acc ↔ g ∈ acc ∨ g ∈ l
  | [], acc => by simp
  | f :: l, acc => by
    rw [List.foldl_cons, foldl_lhsAdd_mem, lhsAdd_mem, List.mem_cons, or_assoc]
theorem BU.lhsAdd {l : List (Fm α)} {f : Fm α} (h : BU l) (hf : ∀ o ∈ nops f, o ∈ l) : BU (lhsAdd l f) := by
  unfold NF.lhsAdd; split
  · exact h
  · exact .snoc h hf
theorem BU.foldl {l acc : List (Fm α)} (hl : BU l) (ha : BU acc) : BU (l.foldl NF.lhsAdd acc) := by
  induction hl with
  | nil => exact ha
  | snoc _ h2 ih =>
    rw [List.foldl_append]
    exact ih.lhsAdd fun o ho => foldl_lhsAdd_mem.2 (.inr (h2 o ho))

theorem subNodesL_spec : ∀ (fs acc : List (Fm α)), (∀ f ∈ fs, BU (subNodes f) ∧ f ∈ subNodes f) → BU acc →
    BU (subNodesL fs acc) ∧ (∀ g ∈ fs, g ∈ subNodesL fs acc) ∧ (∀ g ∈ acc, g ∈ subNodesL fs acc) ∧
    ∀ g ∈ subNodesL fs acc, g ∈ acc ∨ ∃ f ∈ fs, g ∈ subNodes f
  | [], acc, _, ha => by simp [subNodesL, ha]
  | f :: fs, acc, hf, ha => by
    rw [subNodesL]
    have hb : BU (if f ∈ acc then acc else (subNodes f).foldl lhsAdd acc) := by
      split
      · exact ha
      · exact (hf f (by simp)).1.foldl ha
    have ih := subNodesL_spec fs _ (fun g hg => hf g (by simp [hg])) hb
    have hm : ∀ g, g ∈ (if f ∈ acc then acc else (subNodes f).foldl lhsAdd acc) ↔ g ∈ acc ∨ (f ∉ acc ∧ g ∈ subNodes f) := by
      intro g
      split
      · rename_i h; simp [h]
      · rename_i h; rw [foldl_lhsAdd_mem]; simp [h]
    refine ⟨ih.1, ?_, ?_, ?_⟩
    · intro g hg
      rcases List.mem_cons.1 hg with rfl | hg
      · refine ih.2.2.1 _ ((hm _).2 ?_)
        by_cases h : g ∈ acc
        · exact .inl h
        · exact .inr ⟨h, (hf g (by simp)).2⟩
      · exact ih.2.1 g hg
    · intro g hg; exact ih.2.2.1 g ((hm g).2 (.inl hg))
    · intro g hg
      rcases ih.2.2.2 g hg with h | ⟨k, hk, h⟩
      · rcases (hm g).1 h with h | h
        · exact .inl h
        · exact .inr ⟨f, by simp, h.2⟩
      · exact .inr ⟨k, by simp [hk], h⟩

theorem subNodes_bu (f : Fm α) : core f = true → BU (subNodes f) ∧ f ∈ subNodes f := by
  induction f using Fm.ind with
  | hl l =>
    intro _
    have : subNodes (.lit l : Fm α) = [.lit l] := by simp [subNodes]
    rw [this]; exact ⟨.snoc (l := []) .nil (by simp [nops]), by simp⟩
  | ha fs ih =>
    intro hc
    simp only [core_and, Bool.and_eq_true, List.all_eq_true] at hc
    have := subNodesL_spec fs [] (fun f hf => ih f hf (hc.2 f hf)) .nil
    rw [subNodes]
    exact ⟨this.1.lhsAdd this.2.1, lhsAdd_mem.2 (.inr rfl)⟩
  | ho fs ih =>
    intro hc
    simp only [core_or, Bool.and_eq_true, List.all_eq_true] at hc
    have := subNodesL_spec fs [] (fun f hf => ih f hf (hc.2 f hf)) .nil
    rw [subNodes]
    exact ⟨this.1.lhsAdd this.2.1, lhsAdd_mem.2 (.inr rfl)⟩
  | _ => simp [core]

/-- a hereditary property passes to the sub-nodes -/
theorem subNodes_all {P : Fm α → Prop} (hand : ∀ fs, P (.and fs) → ∀ f ∈ fs, P f) (hor : ∀ fs, P (.or fs) → ∀ f ∈ fs, P f) (f : Fm α) :
    core f = true → P f → ∀ g ∈ subNodes f, P g := by
  induction f using Fm.ind with
  | hl l =>
    intro _ h
    have : subNodes (.lit l : Fm α) = [.lit l] := by simp [subNodes]
    rw [this]; simpa using h
  | ha fs ih =>
    intro hc h
    simp only [core_and, Bool.and_eq_true, List.all_eq_true] at hc
    have := subNodesL_spec fs [] (fun f hf => subNodes_bu f (hc.2 f hf)) .nil
    rw [subNodes]
    intro g hg
    rcases lhsAdd_mem.1 hg with hg | rfl
    · rcases this.2.2.2 g hg with h1 | ⟨f, hf, h1⟩
      · simp at h1
      · exact ih f hf (hc.2 f hf) (hand fs h f hf) g h1
    · exact h
  | ho fs ih =>
    intro hc h
    simp only [core_or, Bool.and_eq_true, List.all_eq_true] at hc
    have := subNodesL_spec fs [] (fun f hf => subNodes_bu f (hc.2 f hf)) .nil
    rw [subNodes]
    intro g hg
    rcases lhsAdd_mem.1 hg with hg | rfl
    · rcases this.2.2.2 g hg with h1 | ⟨f, hf, h1⟩
      · simp at h1
      · exact ih f hf (hc.2 f hf) (hor fs h f hf) g h1
    · exact h
  | _ => simp [core]

/-! ### the invariant -/

/-- value of the literal stored for `g` -/
def L (s : TS α) (v : α → Bool) (g : Fm α) : Bool := (litFm (s.lit g)).eval v

/-- no auxiliary variable from `k0` on -/
def Fresh (aux : Nat → α) (k0 : Nat) (f : Fm α) : Prop := VIn (fun x => ∀ n, k0 ≤ n → x ≠ aux n) f

/-- what holds for an entry `h ↦ t` of the formula map with compound `h` -/
structure Entry (c : Bool) (aux : Nat → α) (k0 : Nat) (s : TS α) (h t : Fm α) : Prop where
  lit : ∃ n, k0 ≤ n ∧ n < s.cnt ∧ s.lm h = some (some ⟨aux n, true⟩)
  cnd : Cnd c h
  fresh : Fresh aux k0 h
  keys : ∀ o ∈ nops h, (s.fm o).isSome
  sem : ∀ v, t.eval v = true ↔ ∀ g ∈ csubs h, L s v g = g.eval v
  cnf : isCNF t = true
  vars : ∀ x ∈ t.vars, x ∈ h.vars ∨ ∃ g ∈ csubs h, s.lit g = some ⟨x, true⟩

structure TInv (c : Bool) (aux : Nat → α) (k0 : Nat) (s : TS α) : Prop where
  lits : ∀ l t, s.fm (.lit l) = some t → t = .lit l ∧ s.lm (.lit l) = some (some l)
  shape : ∀ h t, s.fm h = some t → isLit h = true ∨ cmpd h = true
  ent : ∀ h t, cmpd h = true → s.fm h = some t → Entry c aux k0 s h t
  inj : ∀ h h', cmpd h = true → cmpd h' = true → (s.fm h).isSome → (s.fm h').isSome → s.lm h = s.lm h' → h = h'
  cnt : k0 ≤ s.cnt

structure TExt (s s' : TS α) : Prop where
  fm : ∀ h t, s.fm h = some t → s'.fm h = some t
  lm : ∀ h, (s.fm h).isSome → s'.lm h = s.lm h
  cnt : s.cnt ≤ s'.cnt

omit [DecidableEq α] in
theorem TExt.refl (s : TS α) : TExt s s := ⟨fun _ _ h => h, fun _ _ => rfl, Nat.le_refl _⟩
omit [DecidableEq α] in
theorem TExt.isSome {s s' : TS α} (h : TExt s s') {g : Fm α} (hg : (s.fm g).isSome) : (s'.fm g).isSome := by
  obtain ⟨t, ht⟩ := Option.isSome_iff_exists.1 hg
  simp [h.fm g t ht]
omit [DecidableEq α] in
theorem TExt.trans {s s1 s2 : TS α} (h1 : TExt s s1) (h2 : TExt s1 s2) : TExt s s2 :=
  ⟨fun h t e => h2.fm h t (h1.fm h t e), fun h e => (h2.lm h (h1.isSome e)).trans (h1.lm h e), Nat.le_trans h1.cnt h2.cnt⟩

theorem tInv_new (c : Bool) (aux : Nat → α) (k0 : Nat) : TInv c aux k0 (.new k0) :=
  ⟨by simp [TS.new], by simp [TS.new], by simp [TS.new], by simp [TS.new], Nat.le_refl _⟩

/-- the compound sub-formulas of a key are keys -/
theorem keys_csubs {c : Bool} {aux : Nat → α} {k0 : Nat} {s : TS α} (hs : TInv c aux k0 s) (f : Fm α) :
    (s.fm f).isSome → ∀ g ∈ csubs f, (s.fm g).isSome := by
  induction f using Fm.ind with
  | ha fs ih =>
    intro h g hg
    rw [csubs_and] at hg
    rcases List.mem_cons.1 hg with rfl | hg
    · exact h
    · obtain ⟨f, hf, hg⟩ := List.mem_flatMap.1 hg
      obtain ⟨t, ht⟩ := Option.isSome_iff_exists.1 h
      exact ih f hf ((hs.ent _ t rfl ht).keys f hf) g hg
  | ho fs ih =>
    intro h g hg
    rw [csubs_or] at hg
    rcases List.mem_cons.1 hg with rfl | hg
    · exact h
    · obtain ⟨f, hf, hg⟩ := List.mem_flatMap.1 hg
      obtain ⟨t, ht⟩ := Option.isSome_iff_exists.1 h
      exact ih f hf ((hs.ent _ t rfl ht).keys f hf) g hg
  | _ => intro _ g hg; simp [csubs] at hg

omit [DecidableEq α] in
theorem csubs_cmpd (f : Fm α) : ∀ g ∈ csubs f, cmpd g = true := by
  induction f using Fm.ind with
  | ha fs ih =>
    intro g hg
    rw [csubs_and] at hg
    rcases List.mem_cons.1 hg with rfl | hg
    · rfl
    · obtain ⟨f, hf, hg⟩ := List.mem_flatMap.1 hg; exact ih f hf g hg
  | ho fs ih =>
    intro g hg
    rw [csubs_or] at hg
    rcases List.mem_cons.1 hg with rfl | hg
    · rfl
    · obtain ⟨f, hf, hg⟩ := List.mem_flatMap.1 hg; exact ih f hf g hg
  | _ => intro g hg; simp [csubs] at hg

omit [DecidableEq α] in
theorem L_ext {s s' : TS α} (h : TExt s s') {g : Fm α} (hg : (s.fm g).isSome) (v : α → Bool) : L s' v g = L s v g := by
  unfold L TS.lit; rw [h.lm g hg]
omit [DecidableEq α] in
theorem lit_ext {s s' : TS α} (h : TExt s s') {g : Fm α} (hg : (s.fm g).isSome) : s'.lit g = s.lit g := by
  unfold TS.lit; rw [h.lm g hg]

theorem Entry.ext {c : Bool} {aux : Nat → α} {k0 : Nat} {s s' : TS α} (hs : TInv c aux k0 s) (e : TExt s s') {h t : Fm α}
    (hc : (s.fm h).isSome) (E : Entry c aux k0 s h t) : Entry c aux k0 s' h t where
  lit := by
    obtain ⟨n, h1, h2, h3⟩ := E.lit
    exact ⟨n, h1, Nat.lt_of_lt_of_le h2 e.cnt, (e.lm h hc).trans h3⟩
  cnd := E.cnd
  fresh := E.fresh
  keys := fun o ho => e.isSome (E.keys o ho)
  sem := fun v => (E.sem v).trans (forall₂_congr fun g hg => by rw [L_ext e (keys_csubs hs h hc g hg)])
  cnf := E.cnf
  vars := fun x hx => (E.vars x hx).imp id fun ⟨g, hg, h1⟩ => ⟨g, hg, by rw [lit_ext e (keys_csubs hs h hc g hg)]; exact h1⟩

/-! ### one step -/

omit [DecidableEq α] in
theorem fupd_same [DecidableEq α] {V : Type} (m : Fm α → V) (k : Fm α) (x : V) : fupd m k x k = x := by simp [fupd]
theorem fupd_ne {V : Type} (m : Fm α → V) {k g : Fm α} (x : V) (h : g ≠ k) : fupd m k x g = m g := by simp [fupd, h]

theorem computeTseitin_key {c : Bool} {aux : Nat → α} {bot : α} {f : Fm α} {s : TS α} (h : (s.fm f).isSome) :
    computeTseitin c aux bot f s = s := by
  cases f <;> simp [computeTseitin, h]

/-- with all operands in the map, `handleNary` only reads -/
theorem handleNary_eq {c : Bool} {aux : Nat → α} {bot : α} : ∀ (fs : List (Fm α)) (s : TS α), (∀ f ∈ fs, (s.fm f).isSome) →
    handleNary c aux bot fs s = (⟨(fs.filter (fun f => !isLit f)).map (fun f => (s.fm f).getD .fls), fs.map (fun f => litFm (s.lit f)),
      fs.map (fun f => negFm bot (s.lit f))⟩, s)
  | [], s, _ => by simp [handleNary]
  | f :: fs, s, h => by
    have ih := handleNary_eq (c := c) (aux := aux) (bot := bot) fs s (fun g hg => h g (by simp [hg]))
    rw [handleNary]
    have e : (if isLit f = true then s else computeTseitin c aux bot f s) = s := by
      split
      · rfl
      · exact computeTseitin_key (h f (by simp))
    simp only [e, ih]
    cases hf : isLit f <;> simp [hf]

omit [DecidableEq α] in
theorem isLit_iff {f : Fm α} : isLit f = true ↔ ∃ l, f = .lit l := by cases f <;> simp [isLit]

/-- truth values of the operands' literals under the operands' definitions -/
theorem L_operand {c : Bool} {aux : Nat → α} {k0 : Nat} {s : TS α} (hs : TInv c aux k0 s) {f : Fm α} (hf : (s.fm f).isSome) (v : α → Bool)
    (h : ∀ g ∈ csubs f, L s v g = g.eval v) : L s v f = f.eval v := by
  obtain ⟨t, ht⟩ := Option.isSome_iff_exists.1 hf
  rcases hs.shape f t ht with h1 | h1
  · obtain ⟨l, rfl⟩ := isLit_iff.1 h1
    simp [L, TS.lit, (hs.lits l t ht).2, litFm]
  · refine h f ?_
    cases f <;> simp [cmpd] at h1
    · rw [csubs_and]; simp
    · rw [csubs_or]; simp

/-- the stored literal is a literal -/
theorem lit_some {c : Bool} {aux : Nat → α} {k0 : Nat} {s : TS α} (hs : TInv c aux k0 s) {f : Fm α} (hf : (s.fm f).isSome) :
    ∃ l, s.lit f = some l ∧ (l.var ∈ f.vars ∨ (f ∈ csubs f ∧ l.pos = true)) := by
  obtain ⟨t, ht⟩ := Option.isSome_iff_exists.1 hf
  rcases hs.shape f t ht with h1 | h1
  · obtain ⟨l, rfl⟩ := isLit_iff.1 h1
    exact ⟨l, by simp [TS.lit, (hs.lits l t ht).2], .inl (by simp)⟩
  · obtain ⟨n, _, _, h2⟩ := (hs.ent f t h1 ht).lit
    refine ⟨⟨aux n, true⟩, by simp [TS.lit, h2], .inr ⟨?_, rfl⟩⟩
    cases f <;> simp [cmpd] at h1
    · rw [csubs_and]; simp
    · rw [csubs_or]; simp

section step
variable {c : Bool} {aux : Nat → α} {bot : α} {k0 : Nat} {s : TS α}

/-- conjunction of the operands' formulas: all their definitions hold -/
theorem nops_sem (hs : TInv c aux k0 s) {fs : List (Fm α)} (hk : ∀ f ∈ fs, (s.fm f).isSome) (v : α → Bool) :
    ((fs.filter (fun f => !isLit f)).map (fun f => (s.fm f).getD .fls)).all (Fm.eval v) = true ↔
      ∀ g ∈ fs.flatMap csubs, L s v g = g.eval v := by
  simp only [List.all_eq_true, List.mem_map, List.mem_filter, List.mem_flatMap]
  constructor
  · rintro h g ⟨f, hf, hg⟩
    obtain ⟨t, ht⟩ := Option.isSome_iff_exists.1 (hk f hf)
    have h1 : cmpd f = true := by
      cases f <;> simp [csubs] at hg <;> rfl
    have := h t ⟨f, ⟨hf, by cases f <;> simp [cmpd] at h1 <;> rfl⟩, by simp [ht]⟩
    exact ((hs.ent f t h1 ht).sem v).1 this g hg
  · rintro h _ ⟨f, ⟨hf, hl⟩, rfl⟩
    obtain ⟨t, ht⟩ := Option.isSome_iff_exists.1 (hk f hf)
    have h1 : cmpd f = true := by
      rcases hs.shape f t ht with h1 | h1
      · simp [h1] at hl
      · exact h1
    rw [ht]
    exact ((hs.ent f t h1 ht).sem v).2 fun g hg => h g ⟨f, hf, hg⟩

theorem nops_cnf (hs : TInv c aux k0 s) {fs : List (Fm α)} (hk : ∀ f ∈ fs, (s.fm f).isSome) :
    ∀ g ∈ (fs.filter (fun f => !isLit f)).map (fun f => (s.fm f).getD .fls), isCNF g = true := by
  simp only [List.mem_map, List.mem_filter]
  rintro _ ⟨f, ⟨hf, hl⟩, rfl⟩
  obtain ⟨t, ht⟩ := Option.isSome_iff_exists.1 (hk f hf)
  rcases hs.shape f t ht with h1 | h1
  · simp [h1] at hl
  · rw [ht]; exact (hs.ent f t h1 ht).cnf

theorem nops_vars (hs : TInv c aux k0 s) {fs : List (Fm α)} (hk : ∀ f ∈ fs, (s.fm f).isSome) :
    ∀ g ∈ (fs.filter (fun f => !isLit f)).map (fun f => (s.fm f).getD .fls),
      VIn (fun x => (∃ f ∈ fs, x ∈ f.vars) ∨ ∃ g ∈ fs.flatMap csubs, s.lit g = some ⟨x, true⟩) g := by
  simp only [List.mem_map, List.mem_filter]
  rintro _ ⟨f, ⟨hf, hl⟩, rfl⟩ x hx
  obtain ⟨t, ht⟩ := Option.isSome_iff_exists.1 (hk f hf)
  rcases hs.shape f t ht with h1 | h1
  · simp [h1] at hl
  · rw [ht] at hx
    rcases (hs.ent f t h1 ht).vars x hx with h2 | ⟨g, hg, h2⟩
    · exact .inl ⟨f, hf, h2⟩
    · exact .inr ⟨g, List.mem_flatMap.2 ⟨f, hf, hg⟩, h2⟩

/-- the literals of the operands are literals -/
theorem ops_lit (hs : TInv c aux k0 s) {fs : List (Fm α)} (hk : ∀ f ∈ fs, (s.fm f).isSome) :
    ∀ f ∈ fs, ∃ l, s.lit f = some l ∧ litFm (s.lit f) = .lit l ∧ negFm bot (s.lit f) = .lit l.neg ∧
      ((∃ f ∈ fs, l.var ∈ f.vars) ∨ ∃ g ∈ fs.flatMap csubs, s.lit g = some ⟨l.var, true⟩) := by
  intro f hf
  obtain ⟨l, h1, h2⟩ := lit_some hs (hk f hf)
  refine ⟨l, h1, by simp [h1, litFm], by simp [h1, negFm], ?_⟩
  rcases h2 with h2 | ⟨h2, h3⟩
  · exact .inl ⟨f, hf, h2⟩
  · refine .inr ⟨f, List.mem_flatMap.2 ⟨f, hf, h2⟩, ?_⟩
    rw [h1, ← h3]

theorem isCNF_tOr {fs : List (Fm α)} (h : ∀ f ∈ fs, isLit f = true) : isCNF (tOr c fs) = true := by
  refine isNF_innerJoin (c := c) (d := true) (fs := fs) ?_
  intro f hf
  obtain ⟨l, rfl⟩ := isLit_iff.1 (h f hf)
  exact .inr (.inr rfl)
theorem isCNF_tAnd {fs : List (Fm α)} (h : ∀ f ∈ fs, isCNF f = true) : isCNF (tAnd c fs) = true :=
  isNF_outerJoin (c := c) (d := true) (fs := fs) h

/-- definition of a conjunction's literal -/
theorem bool_and_def {A : Type} (fs : List A) (l : A → Bool) (t : Bool) :
    ((fs.all (fun f => !t || l f) && (t || fs.any (fun f => !l f))) = true) ↔ t = fs.all l := by
  cases t
  · rw [Bool.eq_iff_iff (a := false)]; simp
  · rw [Bool.eq_iff_iff (a := true)]; simp
theorem bool_or_def {A : Type} (fs : List A) (l : A → Bool) (t : Bool) :
    ((fs.all (fun f => t || !l f) && (!t || fs.any l)) = true) ↔ t = fs.any l := by
  cases t
  · rw [Bool.eq_iff_iff (a := false)]; simp
  · rw [Bool.eq_iff_iff (a := true)]; simp

/-- the clauses added for a conjunction -/
def andClauses (c : Bool) (bot : α) (s : TS α) (ts : Lit α) (fs : List (Fm α)) : List (Fm α) :=
  (fs.map (fun f => litFm (s.lit f))).map (fun o => tOr c [tNot (.lit ts), o]) ++ [tOr c (.lit ts :: fs.map (fun f => negFm bot (s.lit f)))]
def orClauses (c : Bool) (bot : α) (s : TS α) (ts : Lit α) (fs : List (Fm α)) : List (Fm α) :=
  (fs.map (fun f => negFm bot (s.lit f))).map (fun o => tOr c [.lit ts, o]) ++ [tOr c (.lit ts.neg :: fs.map (fun f => litFm (s.lit f)))]

theorem negFm_eval (hs : TInv c aux k0 s) {fs : List (Fm α)} (hk : ∀ f ∈ fs, (s.fm f).isSome) (v : α → Bool) :
    ∀ f ∈ fs, (negFm bot (s.lit f)).eval v = !L s v f := by
  intro f hf
  obtain ⟨l, h1, h2, h3, _⟩ := ops_lit (bot := bot) hs hk f hf
  rw [h3, L, h2]; simp

theorem andClauses_sem (hs : TInv c aux k0 s) {fs : List (Fm α)} (hk : ∀ f ∈ fs, (s.fm f).isSome) (ts : Lit α) (v : α → Bool) :
    (andClauses c bot s ts fs).all (Fm.eval v) = true ↔ ts.eval v = fs.all (L s v) := by
  rw [← bool_and_def]
  unfold andClauses
  rw [List.all_append, List.all_map, List.all_map]
  have e1 : ((Fm.eval v ∘ fun o => tOr c [tNot (.lit ts), o]) ∘ fun f => litFm (s.lit f)) = fun f => !ts.eval v || L s v f := by
    funext f; simp [L]
  have e2 : (fs.map (fun f => negFm bot (s.lit f))).any (Fm.eval v) = fs.any (fun f => !L s v f) := by
    rw [List.any_map, Bool.eq_iff_iff, List.any_eq_true, List.any_eq_true]
    exact exists_congr fun f => and_congr_right fun hf => by simp [negFm_eval (bot := bot) hs hk v f hf]
  rw [e1]
  simp only [List.all_cons, List.all_nil, Bool.and_true, eval_tOr, List.any_cons, e2, Fm.eval_lit]
theorem orClauses_sem (hs : TInv c aux k0 s) {fs : List (Fm α)} (hk : ∀ f ∈ fs, (s.fm f).isSome) (ts : Lit α) (v : α → Bool) :
    (orClauses c bot s ts fs).all (Fm.eval v) = true ↔ ts.eval v = fs.any (L s v) := by
  rw [← bool_or_def]
  unfold orClauses
  rw [List.all_append, List.all_map, List.all_map]
  have e1 : fs.all ((Fm.eval v ∘ fun o => tOr c [.lit ts, o]) ∘ fun f => negFm bot (s.lit f)) = fs.all (fun f => ts.eval v || !L s v f) := by
    rw [Bool.eq_iff_iff, List.all_eq_true, List.all_eq_true]
    exact forall₂_congr fun f hf => by simp [negFm_eval (bot := bot) hs hk v f hf]
  have e2 : (fs.map (fun f => litFm (s.lit f))).any (Fm.eval v) = fs.any (L s v) := by
    rw [List.any_map]; rfl
  rw [e1]
  simp only [List.all_cons, List.all_nil, Bool.and_true, eval_tOr, List.any_cons, e2, Fm.eval_lit, Lit.eval_neg]

theorem andClauses_cnf (hs : TInv c aux k0 s) {fs : List (Fm α)} (hk : ∀ f ∈ fs, (s.fm f).isSome) (ts : Lit α) :
    ∀ g ∈ andClauses c bot s ts fs, isCNF g = true := by
  have ho := ops_lit (bot := bot) hs hk
  intro g hg
  simp only [andClauses, List.map_map, List.mem_append, List.mem_map, List.mem_singleton, Function.comp] at hg
  rcases hg with ⟨f, hf, rfl⟩ | rfl
  · obtain ⟨l, _, h2, _⟩ := ho f hf
    rw [h2]; exact isCNF_tOr (by simp [tNot, isLit])
  · refine isCNF_tOr ?_
    simp only [List.mem_cons, List.mem_map]
    rintro _ (rfl | ⟨f, hf, rfl⟩)
    · rfl
    · obtain ⟨l, _, _, h3, _⟩ := ho f hf; rw [h3]; rfl
theorem orClauses_cnf (hs : TInv c aux k0 s) {fs : List (Fm α)} (hk : ∀ f ∈ fs, (s.fm f).isSome) (ts : Lit α) :
    ∀ g ∈ orClauses c bot s ts fs, isCNF g = true := by
  have ho := ops_lit (bot := bot) hs hk
  intro g hg
  simp only [orClauses, List.map_map, List.mem_append, List.mem_map, List.mem_singleton, Function.comp] at hg
  rcases hg with ⟨f, hf, rfl⟩ | rfl
  · obtain ⟨l, _, _, h3, _⟩ := ho f hf
    rw [h3]; exact isCNF_tOr (by simp [isLit])
  · refine isCNF_tOr ?_
    simp only [List.mem_cons, List.mem_map]
    rintro _ (rfl | ⟨f, hf, rfl⟩)
    · rfl
    · obtain ⟨l, _, h2, _⟩ := ho f hf; rw [h2]; rfl

theorem andClauses_vars (hs : TInv c aux k0 s) {fs : List (Fm α)} (hk : ∀ f ∈ fs, (s.fm f).isSome) (ts : Lit α) :
    ∀ g ∈ andClauses c bot s ts fs, VIn (fun x => x = ts.var ∨ (∃ f ∈ fs, x ∈ f.vars) ∨ ∃ g ∈ fs.flatMap csubs, s.lit g = some ⟨x, true⟩) g := by
  have ho := ops_lit (bot := bot) hs hk
  intro g hg
  simp only [andClauses, List.map_map, List.mem_append, List.mem_map, List.mem_singleton, Function.comp] at hg
  rcases hg with ⟨f, hf, rfl⟩ | rfl
  · refine VIn.tOr ?_
    obtain ⟨l, _, h2, _, h4⟩ := ho f hf
    simp only [List.mem_cons, List.not_mem_nil, or_false]
    rintro _ (rfl | rfl)
    · intro x hx; simp at hx; exact .inl hx
    · rw [h2]; intro x hx; simp at hx; subst hx; exact .inr h4
  · refine VIn.tOr ?_
    simp only [List.mem_cons, List.mem_map]
    rintro _ (rfl | ⟨f, hf, rfl⟩)
    · intro x hx; simp at hx; exact .inl hx
    · obtain ⟨l, _, _, h3, h4⟩ := ho f hf; rw [h3]; intro x hx; simp [Lit.neg] at hx; subst hx; exact .inr h4
theorem orClauses_vars (hs : TInv c aux k0 s) {fs : List (Fm α)} (hk : ∀ f ∈ fs, (s.fm f).isSome) (ts : Lit α) :
    ∀ g ∈ orClauses c bot s ts fs, VIn (fun x => x = ts.var ∨ (∃ f ∈ fs, x ∈ f.vars) ∨ ∃ g ∈ fs.flatMap csubs, s.lit g = some ⟨x, true⟩) g := by
  have ho := ops_lit (bot := bot) hs hk
  intro g hg
  simp only [orClauses, List.map_map, List.mem_append, List.mem_map, List.mem_singleton, Function.comp] at hg
  rcases hg with ⟨f, hf, rfl⟩ | rfl
  · refine VIn.tOr ?_
    obtain ⟨l, _, _, h3, h4⟩ := ho f hf
    simp only [List.mem_cons, List.not_mem_nil, or_false]
    rintro _ (rfl | rfl)
    · intro x hx; simp at hx; exact .inl hx
    · rw [h3]; intro x hx; simp [Lit.neg] at hx; subst hx; exact .inr h4
  · refine VIn.tOr ?_
    simp only [List.mem_cons, List.mem_map]
    rintro _ (rfl | ⟨f, hf, rfl⟩)
    · intro x hx; simp [Lit.neg] at hx; exact .inl hx
    · obtain ⟨l, _, h2, _, h4⟩ := ho f hf; rw [h2]; intro x hx; simp at hx; subst hx; exact .inr h4

/-- `computeTseitin` on a compound formula which is not in the map and whose operands are -/
theorem computeTseitin_and {fs : List (Fm α)} (hk : ∀ f ∈ fs, (s.fm f).isSome) (hn : s.fm (.and fs) = none) :
    computeTseitin c aux bot (.and fs) s = { s with
      cnt := s.cnt + 1
      lm := fupd s.lm (.and fs) (some (some ⟨aux s.cnt, true⟩))
      fm := fupd s.fm (.and fs) (some (tAnd c ((fs.filter (fun f => !isLit f)).map (fun f => (s.fm f).getD .fls) ++
        andClauses c bot s ⟨aux s.cnt, true⟩ fs))) } := by
  have := handleNary_eq (c := c) (aux := aux) (bot := bot) fs { s with cnt := s.cnt + 1 } hk
  rw [computeTseitin]
  simp only [hn, Option.isSome_none, Bool.false_eq_true, if_false, this]
  simp only [andClauses, TS.lit, List.append_assoc]
theorem computeTseitin_or {fs : List (Fm α)} (hk : ∀ f ∈ fs, (s.fm f).isSome) (hn : s.fm (.or fs) = none) :
    computeTseitin c aux bot (.or fs) s = { s with
      cnt := s.cnt + 1
      lm := fupd s.lm (.or fs) (some (some ⟨aux s.cnt, true⟩))
      fm := fupd s.fm (.or fs) (some (tAnd c ((fs.filter (fun f => !isLit f)).map (fun f => (s.fm f).getD .fls) ++
        orClauses c bot s ⟨aux s.cnt, true⟩ fs))) } := by
  have := handleNary_eq (c := c) (aux := aux) (bot := bot) fs { s with cnt := s.cnt + 1 } hk
  rw [computeTseitin]
  simp only [hn, Option.isSome_none, Bool.false_eq_true, if_false, this]
  simp only [orClauses, TS.lit, List.append_assoc]

/-- adding one compound entry keeps the invariant -/
theorem insert_ok (haux : ∀ m n, aux m = aux n → m = n) (hs : TInv c aux k0 s) {h t : Fm α} (hc : cmpd h = true) (hn : s.fm h = none)
    (s' : TS α) (e' : s' = ⟨fupd s.fm h (some t), fupd s.lm h (some (some ⟨aux s.cnt, true⟩)), s.cnt + 1⟩)
    (E : Entry c aux k0 s' h t) : TInv c aux k0 s' ∧ TExt s s' ∧ (s'.fm h).isSome := by
  subst e'
  have hne : ∀ {g : Fm α}, (s.fm g).isSome → g ≠ h := fun hg e => by rw [e, hn] at hg; simp at hg
  have ex : TExt s ⟨fupd s.fm h (some t), fupd s.lm h (some (some ⟨aux s.cnt, true⟩)), s.cnt + 1⟩ := by
    refine ⟨fun g u hu => ?_, fun g hg => ?_, Nat.le_succ _⟩
    · show fupd s.fm h (some t) g = some u
      rw [fupd_ne _ _ (hne (by simp [hu]))]; exact hu
    · exact fupd_ne _ _ (hne hg)
  refine ⟨⟨?_, ?_, ?_, ?_, Nat.le_succ_of_le hs.cnt⟩, ex, by simp [fupd]⟩
  · intro l u hu
    have : Fm.lit l ≠ h := by rintro rfl; simp [cmpd] at hc
    simp only [fupd_ne _ _ this] at hu ⊢
    exact hs.lits l u hu
  · intro g u hu
    by_cases hg : g = h
    · subst hg; exact .inr hc
    · simp only [fupd_ne _ _ hg] at hu; exact hs.shape g u hu
  · intro g u hg hu
    by_cases e : g = h
    · subst e; simp only [fupd_same, Option.some.injEq] at hu; subst hu; exact E
    · simp only [fupd_ne _ _ e] at hu
      exact (hs.ent g u hg hu).ext hs ex (by simp [hu])
  · intro g g' hg hg' k1 k2 el
    by_cases e : g = h
    · by_cases e2 : g' = h
      · rw [e, e2]
      · subst e
        simp only [fupd_ne _ _ e2, fupd_same] at k2 el
        obtain ⟨u, hu⟩ := Option.isSome_iff_exists.1 k2
        obtain ⟨n, _, h2, h3⟩ := (hs.ent g' u hg' hu).lit
        rw [h3] at el
        simp at el
        have := haux _ _ el; omega
    · by_cases e2 : g' = h
      · subst e2
        simp only [fupd_ne _ _ e, fupd_same] at k1 el
        obtain ⟨u, hu⟩ := Option.isSome_iff_exists.1 k1
        obtain ⟨n, _, h2, h3⟩ := (hs.ent g u hg hu).lit
        rw [h3] at el
        simp at el
        have := haux _ _ el; omega
      · simp only [fupd_ne _ _ e, fupd_ne _ _ e2] at k1 k2 el
        exact hs.inj g g' hg hg' k1 k2 el

/-- one call of `computeTseitin` with all operands in the map -/
theorem computeTseitin_ok (haux : ∀ m n, aux m = aux n → m = n) (hs : TInv c aux k0 s) (h : Fm α) (hcnd : Cnd c h) (hfr : Fresh aux k0 h)
    (hk : ∀ f ∈ nops h, (s.fm f).isSome) :
    TInv c aux k0 (computeTseitin c aux bot h s) ∧ TExt s (computeTseitin c aux bot h s) ∧ ((computeTseitin c aux bot h s).fm h).isSome := by
  cases hn : s.fm h with
  | some t =>
    have : (s.fm h).isSome := by simp [hn]
    rw [computeTseitin_key this]
    exact ⟨hs, .refl s, this⟩
  | none =>
    have hne : ∀ {g : Fm α}, (s.fm g).isSome → g ≠ h := fun hg e => by rw [e, hn] at hg; simp at hg
    cases h with
    | lit l =>
      rw [computeTseitin]
      simp only [hn, Option.isSome_none, Bool.false_eq_true, if_false]
      have ex : TExt s { s with fm := fupd s.fm (.lit l) (some (.lit l)), lm := fupd s.lm (.lit l) (some (some l)) } :=
        ⟨fun g u hu => by
          show fupd s.fm (.lit l) (some (.lit l)) g = some u
          rw [fupd_ne _ _ (hne (by simp [hu]))]; exact hu, fun g hg => fupd_ne _ _ (hne hg), Nat.le_refl _⟩
      have hcl : ∀ {g : Fm α}, cmpd g = true → g ≠ .lit l := fun hg e => by rw [e] at hg; simp [cmpd] at hg
      refine ⟨⟨?_, ?_, ?_, ?_, hs.cnt⟩, ex, by simp [fupd]⟩
      · intro l' u hu
        by_cases e : l' = l
        · subst e; simp only [fupd_same, Option.some.injEq] at hu ⊢; exact ⟨hu.symm, trivial⟩
        · have : Fm.lit l' ≠ .lit l := by simpa using e
          simp only [fupd_ne _ _ this] at hu ⊢; exact hs.lits l' u hu
      · intro g u hu
        by_cases e : g = .lit l
        · subst e; exact .inl rfl
        · simp only [fupd_ne _ _ e] at hu; exact hs.shape g u hu
      · intro g u hg hu
        simp only [fupd_ne _ _ (hcl hg)] at hu
        exact (hs.ent g u hg hu).ext hs ex (by simp [hu])
      · intro g g' hg hg' k1 k2 el
        simp only [fupd_ne _ _ (hcl hg), fupd_ne _ _ (hcl hg')] at k1 k2 el
        exact hs.inj g g' hg hg' k1 k2 el
    | and fs =>
      have hk : ∀ f ∈ fs, (s.fm f).isSome := hk
      refine insert_ok haux hs rfl hn _ (computeTseitin_and hk hn) ?_
      rw [computeTseitin_and (fs := fs) hk hn]
      generalize hs' : ({ s with
        cnt := s.cnt + 1
        lm := fupd s.lm (.and fs) (some (some ⟨aux s.cnt, true⟩))
        fm := fupd s.fm (.and fs) (some (tAnd c ((fs.filter (fun f => !isLit f)).map (fun f => (s.fm f).getD .fls) ++
          andClauses c bot s ⟨aux s.cnt, true⟩ fs))) } : TS α) = s'
      have hlit : s'.lit (.and fs) = some ⟨aux s.cnt, true⟩ := by subst hs'; simp [TS.lit, fupd]
      have hold : ∀ {g : Fm α}, (s.fm g).isSome → s'.lit g = s.lit g := by
        intro g hg; subst hs'; simp [TS.lit, fupd_ne _ _ (hne hg)]
      have hsub : ∀ g ∈ fs.flatMap csubs, (s.fm g).isSome := by
        intro g hg
        obtain ⟨f, hf, hg⟩ := List.mem_flatMap.1 hg
        exact keys_csubs hs f (hk f hf) g hg
      refine ⟨⟨s.cnt, hs.cnt, by subst hs'; exact Nat.lt_succ_self _, by subst hs'; simp [fupd]⟩, hcnd, hfr, ?_, ?_, ?_, ?_⟩
      · intro o ho; subst hs'
        have := hk o ho
        simpa [fupd_ne _ _ (hne this)] using this
      · intro v
        rw [eval_tAnd, List.all_append, Bool.and_eq_true, nops_sem hs hk, andClauses_sem hs hk, csubs_and]
        simp only [List.forall_mem_cons]
        have e0 : L s' v (.and fs) = (⟨aux s.cnt, true⟩ : Lit α).eval v := by unfold L; rw [hlit]; rfl
        have e1 : (∀ g ∈ fs.flatMap csubs, L s' v g = g.eval v) ↔ ∀ g ∈ fs.flatMap csubs, L s v g = g.eval v :=
          forall₂_congr fun g hg => by unfold L; rw [hold (hsub g hg)]
        rw [e0, e1, and_comm]
        refine and_congr_left fun hd => ?_
        have : fs.all (L s v) = (Fm.and fs).eval v := by
          rw [Fm.eval_and, Bool.eq_iff_iff, List.all_eq_true, List.all_eq_true]
          exact forall₂_congr fun f hf => by
            rw [L_operand hs (hk f hf) v fun g hg => hd g (List.mem_flatMap.2 ⟨f, hf, hg⟩)]
        rw [this]
      · refine isCNF_tAnd ?_
        intro g hg
        rcases List.mem_append.1 hg with hg | hg
        · exact nops_cnf hs hk g hg
        · exact andClauses_cnf hs hk _ g hg
      · have hfin : ∀ x, ((∃ f ∈ fs, x ∈ f.vars) ∨ ∃ g ∈ fs.flatMap csubs, s.lit g = some ⟨x, true⟩) →
            x ∈ (Fm.and fs).vars ∨ ∃ g ∈ csubs (.and fs), s'.lit g = some ⟨x, true⟩ := by
          rintro x (h1 | ⟨g, hg, h1⟩)
          · exact .inl (by simpa using h1)
          · exact .inr ⟨g, by rw [csubs_and]; exact List.mem_cons_of_mem _ hg, by rw [hold (hsub g hg)]; exact h1⟩
        refine VIn.tAnd (X := fun x => x ∈ (Fm.and fs).vars ∨ ∃ g ∈ csubs (.and fs), s'.lit g = some ⟨x, true⟩) ?_
        intro g hg x hx
        rcases List.mem_append.1 hg with hg | hg
        · exact hfin x (nops_vars hs hk g hg x hx)
        · rcases andClauses_vars hs hk _ g hg x hx with rfl | h1
          · exact .inr ⟨_, by rw [csubs_and]; exact List.mem_cons_self, hlit⟩
          · exact hfin x h1
    | or fs =>
      have hk : ∀ f ∈ fs, (s.fm f).isSome := hk
      refine insert_ok haux hs rfl hn _ (computeTseitin_or hk hn) ?_
      rw [computeTseitin_or (fs := fs) hk hn]
      generalize hs' : ({ s with
        cnt := s.cnt + 1
        lm := fupd s.lm (.or fs) (some (some ⟨aux s.cnt, true⟩))
        fm := fupd s.fm (.or fs) (some (tAnd c ((fs.filter (fun f => !isLit f)).map (fun f => (s.fm f).getD .fls) ++
          orClauses c bot s ⟨aux s.cnt, true⟩ fs))) } : TS α) = s'
      have hlit : s'.lit (.or fs) = some ⟨aux s.cnt, true⟩ := by subst hs'; simp [TS.lit, fupd]
      have hold : ∀ {g : Fm α}, (s.fm g).isSome → s'.lit g = s.lit g := by
        intro g hg; subst hs'; simp [TS.lit, fupd_ne _ _ (hne hg)]
      have hsub : ∀ g ∈ fs.flatMap csubs, (s.fm g).isSome := by
        intro g hg
        obtain ⟨f, hf, hg⟩ := List.mem_flatMap.1 hg
        exact keys_csubs hs f (hk f hf) g hg
      refine ⟨⟨s.cnt, hs.cnt, by subst hs'; exact Nat.lt_succ_self _, by subst hs'; simp [fupd]⟩, hcnd, hfr, ?_, ?_, ?_, ?_⟩
      · intro o ho; subst hs'
        have := hk o ho
        simpa [fupd_ne _ _ (hne this)] using this
      · intro v
        rw [eval_tAnd, List.all_append, Bool.and_eq_true, nops_sem hs hk, orClauses_sem hs hk, csubs_or]
        simp only [List.forall_mem_cons]
        have e0 : L s' v (.or fs) = (⟨aux s.cnt, true⟩ : Lit α).eval v := by unfold L; rw [hlit]; rfl
        have e1 : (∀ g ∈ fs.flatMap csubs, L s' v g = g.eval v) ↔ ∀ g ∈ fs.flatMap csubs, L s v g = g.eval v :=
          forall₂_congr fun g hg => by unfold L; rw [hold (hsub g hg)]
        rw [e0, e1, and_comm]
        refine and_congr_left fun hd => ?_
        have : fs.any (L s v) = (Fm.or fs).eval v := by
          rw [Fm.eval_or, Bool.eq_iff_iff, List.any_eq_true, List.any_eq_true]
          exact exists_congr fun f => and_congr_right fun hf => by
            rw [L_operand hs (hk f hf) v fun g hg => hd g (List.mem_flatMap.2 ⟨f, hf, hg⟩)]
        rw [this]
      · refine isCNF_tAnd ?_
        intro g hg
        rcases List.mem_append.1 hg with hg | hg
        · exact nops_cnf hs hk g hg
        · exact orClauses_cnf hs hk _ g hg
      · have hfin : ∀ x, ((∃ f ∈ fs, x ∈ f.vars) ∨ ∃ g ∈ fs.flatMap csubs, s.lit g = some ⟨x, true⟩) →
            x ∈ (Fm.or fs).vars ∨ ∃ g ∈ csubs (.or fs), s'.lit g = some ⟨x, true⟩ := by
          rintro x (h1 | ⟨g, hg, h1⟩)
          · exact .inl (by simpa using h1)
          · exact .inr ⟨g, by rw [csubs_or]; exact List.mem_cons_of_mem _ hg, by rw [hold (hsub g hg)]; exact h1⟩
        refine VIn.tAnd (X := fun x => x ∈ (Fm.or fs).vars ∨ ∃ g ∈ csubs (.or fs), s'.lit g = some ⟨x, true⟩) ?_
        intro g hg x hx
        rcases List.mem_append.1 hg with hg | hg
        · exact hfin x (nops_vars hs hk g hg x hx)
        · rcases orClauses_vars hs hk _ g hg x hx with rfl | h1
          · exact .inr ⟨_, by rw [csubs_or]; exact List.mem_cons_self, hlit⟩
          · exact hfin x h1
    | _ => cases hcnd

/-- the loop over the sub-nodes -/
theorem loop_ok (haux : ∀ m n, aux m = aux n → m = n) (hs : TInv c aux k0 s) {l : List (Fm α)} (hl : BU l)
    (hc : ∀ g ∈ l, Cnd c g ∧ Fresh aux k0 g) :
    TInv c aux k0 (l.foldl (fun s op => computeTseitin c aux bot op s) s) ∧ TExt s (l.foldl (fun s op => computeTseitin c aux bot op s) s) ∧
      ∀ g ∈ l, ((l.foldl (fun s op => computeTseitin c aux bot op s) s).fm g).isSome := by
  induction hl with
  | nil => exact ⟨hs, .refl s, by simp⟩
  | @snoc l h _ ho ih =>
    have ih := ih (fun g hg => hc g (by simp [hg]))
    rw [List.foldl_append, List.foldl_cons, List.foldl_nil]
    have := computeTseitin_ok (bot := bot) haux ih.1 h (hc h (by simp)).1 (hc h (by simp)).2 (fun f hf => ih.2.2 f (ho f hf))
    refine ⟨this.1, ih.2.1.trans this.2.1, ?_⟩
    intro g hg
    rcases List.mem_append.1 hg with hg | hg
    · exact this.2.1.isSome (ih.2.2 g hg)
    · simp at hg; subst hg; exact this.2.2

end step

end Verif.NF
