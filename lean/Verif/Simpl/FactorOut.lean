import Verif.Simpl.Lemmas
import Mathlib.Tactic.Tauto
/-! C36: `FactorOut` terminates and its result is equivalent. -/
namespace Verif.Simpl
open Verif Verif.Tree
set_option linter.unusedSectionVars false
variable {α : Type} [DecidableEq α]

/-! ## specification: the formulas a factory builds -/

/-- no conjunction directly below a conjunction, no disjunction directly below a disjunction, no constant operand, at least two operands, no double
negation: what the constructors of the factory guarantee (`flat_tAnd`, `flat_tOr`, `flat_tNot`, `flat_tMinterm`, `flat_tClause`) -/
inductive Flat : Fm α → Prop
  | tru : Flat .tru
  | fls : Flat .fls
  | lit (l : Lit α) : Flat (.lit l)
  | cc (c : Cmp) (k : Int) (xs : List α) : Flat (.cc c k xs)
  | pbc (c : Cmp) (k : Int) (ts : List (Int × Lit α)) : Flat (.pbc c k ts)
  | impl (f g : Fm α) : Flat (.impl f g)
  | equiv (f g : Fm α) : Flat (.equiv f g)
  | not {f : Fm α} : Flat f → tNot f = .not f → Flat (.not f)
  | and {fs : List (Fm α)} : 2 ≤ fs.length → (∀ f ∈ fs, Flat f) → (∀ f ∈ fs, f ≠ .tru ∧ f ≠ .fls) → (∀ gs, .and gs ∉ fs) → Flat (.and fs)
  | or {fs : List (Fm α)} : 2 ≤ fs.length → (∀ f ∈ fs, Flat f) → (∀ f ∈ fs, f ≠ .tru ∧ f ≠ .fls) → (∀ gs, .or gs ∉ fs) → Flat (.or fs)

theorem Flat.ofAnd {fs : List (Fm α)} (h : Flat (.and fs)) :
    2 ≤ fs.length ∧ (∀ f ∈ fs, Flat f) ∧ (∀ f ∈ fs, f ≠ .tru ∧ f ≠ .fls) ∧ (∀ gs, .and gs ∉ fs) := by
  cases h with | and h1 h2 h3 h4 => exact ⟨h1, h2, h3, h4⟩
theorem Flat.ofOr {fs : List (Fm α)} (h : Flat (.or fs)) :
    2 ≤ fs.length ∧ (∀ f ∈ fs, Flat f) ∧ (∀ f ∈ fs, f ≠ .tru ∧ f ≠ .fls) ∧ (∀ gs, .or gs ∉ fs) := by
  cases h with | or h1 h2 h3 h4 => exact ⟨h1, h2, h3, h4⟩

theorem andOp_flat {fs : List (Fm α)} (h : ∀ f ∈ fs, Flat f) {g : Fm α} (hg : AndOp fs g) :
    Flat g ∧ (g ≠ .tru ∧ g ≠ .fls) ∧ ∀ gs, g ≠ .and gs := by
  obtain ⟨h1, h2, h3⟩ := hg
  rcases h3 with ⟨h3, h4⟩ | ⟨gs, h3, h4⟩
  · exact ⟨h g h3, ⟨h1, h2⟩, h4⟩
  · have := (h _ h3).ofAnd
    exact ⟨this.2.1 g h4, ⟨h1, h2⟩, fun hs e => this.2.2.2 hs (e ▸ h4)⟩
theorem orOp_flat {fs : List (Fm α)} (h : ∀ f ∈ fs, Flat f) {g : Fm α} (hg : OrOp fs g) :
    Flat g ∧ (g ≠ .tru ∧ g ≠ .fls) ∧ ∀ gs, g ≠ .or gs := by
  obtain ⟨h1, h2, h3⟩ := hg
  rcases h3 with ⟨h3, h4⟩ | ⟨gs, h3, h4⟩
  · exact ⟨h g h3, ⟨h1, h2⟩, h4⟩
  · have := (h _ h3).ofOr
    exact ⟨this.2.1 g h4, ⟨h1, h2⟩, fun hs e => this.2.2.2 hs (e ▸ h4)⟩
theorem flat_tAnd {cons : Bool} {fs : List (Fm α)} (h : ∀ f ∈ fs, Flat f) : Flat (tAnd cons fs) :=
  tAnd_elim .tru .fls (fun _ hg => (andOp_flat h hg).1) fun _ hl _ ha =>
    .and hl (fun f hf => (andOp_flat h (ha f hf)).1) (fun f hf => (andOp_flat h (ha f hf)).2.1) fun gs hgs => (andOp_flat h (ha _ hgs)).2.2 gs rfl
theorem flat_tOr {cons : Bool} {fs : List (Fm α)} (h : ∀ f ∈ fs, Flat f) : Flat (tOr cons fs) :=
  tOr_elim .tru .fls (fun _ hg => (orOp_flat h hg).1) fun _ hl _ ha =>
    .or hl (fun f hf => (orOp_flat h (ha f hf)).1) (fun f hf => (orOp_flat h (ha f hf)).2.1) fun gs hgs => (orOp_flat h (ha _ hgs)).2.2 gs rfl
theorem flat_tNot {f : Fm α} (h : Flat f) : Flat (tNot f) := by
  cases h with
  | tru => exact .fls
  | fls => exact .tru
  | lit l => exact .lit _
  | not h _ => exact h
  | cc c k xs => exact .not (.cc ..) rfl
  | pbc c k ts => exact .not (.pbc ..) rfl
  | impl f g => exact .not (.impl ..) rfl
  | equiv f g => exact .not (.equiv ..) rfl
  | and h1 h2 h3 h4 => exact .not (.and h1 h2 h3 h4) rfl
  | or h1 h2 h3 h4 => exact .not (.or h1 h2 h3 h4) rfl
theorem flat_tMinterm (ls : List (Lit α)) : Flat (tMinterm ls) := by
  unfold tMinterm
  split
  · exact .tru
  · exact .lit _
  · rename_i h1 h2
    refine .and ?_ ?_ ?_ ?_
    · match ls, h1, h2 with
      | [], h, _ => exact absurd rfl h
      | [x], _, h => exact absurd rfl (h x)
      | _ :: _ :: _, _, _ => simp
    · intro f hf; obtain ⟨l, _, rfl⟩ := List.mem_map.1 hf; exact .lit l
    · intro f hf; obtain ⟨l, _, rfl⟩ := List.mem_map.1 hf; simp
    · intro gs hf; obtain ⟨l, _, e⟩ := List.mem_map.1 hf; cases e
theorem flat_tClause (ls : List (Lit α)) : Flat (tClause ls) := by
  unfold tClause
  split
  · exact .fls
  · exact .lit _
  · rename_i h1 h2
    refine .or ?_ ?_ ?_ ?_
    · match ls, h1, h2 with
      | [], h, _ => exact absurd rfl h
      | [x], _, h => exact absurd rfl (h x)
      | _ :: _ :: _, _, _ => simp
    · intro f hf; obtain ⟨l, _, rfl⟩ := List.mem_map.1 hf; exact .lit l
    · intro f hf; obtain ⟨l, _, rfl⟩ := List.mem_map.1 hf; simp
    · intro gs hf; obtain ⟨l, _, e⟩ := List.mem_map.1 hf; cases e
theorem flat_tImpl {cons : Bool} {f g : Fm α} (hf : Flat f) (hg : Flat g) : Flat (tImpl cons f g) := by
  unfold tImpl
  split
  · exact .tru
  split
  · exact hg
  split
  · exact flat_tNot hf
  split
  · exact .tru
  · exact .impl _ _
theorem flat_tEquiv {cons : Bool} {f g : Fm α} (hf : Flat f) (hg : Flat g) : Flat (tEquiv cons f g) := by
  unfold tEquiv
  split
  · exact hg
  split
  · exact hf
  split
  · exact flat_tNot hg
  split
  · exact flat_tNot hf
  split
  · exact .tru
  split
  · exact .fls
  · exact .equiv _ _
theorem flat_nary {cons d : Bool} {fs : List (Fm α)} (h : ∀ f ∈ fs, Flat f) : Flat (nary cons d fs) := by
  unfold nary
  split
  · exact flat_tAnd h
  · exact flat_tOr h

/-! ## the measure -/

mutual
/-- number of leaves (implications and equivalences count as leaves) and negations -/
def leaves : Fm α → Nat
  | .tru => 0
  | .fls => 0
  | .lit _ => 1
  | .cc _ _ _ => 1
  | .pbc _ _ _ => 1
  | .impl _ _ => 1
  | .equiv _ _ => 1
  | .not f => leaves f + 1
  | .and fs => leavesL fs
  | .or fs => leavesL fs
def leavesL : List (Fm α) → Nat
  | [] => 0
  | f :: fs => leaves f + leavesL fs
end

theorem leavesL_append (fs gs : List (Fm α)) : leavesL (fs ++ gs) = leavesL fs + leavesL gs := by
  induction fs with
  | nil => simp [leavesL]
  | cons f fs ih => simp [leavesL, ih]; omega
theorem leaves_le_leavesL {f : Fm α} : ∀ {fs : List (Fm α)}, f ∈ fs → leaves f ≤ leavesL fs
  | g :: gs, h => by
    rw [leavesL]
    rcases List.mem_cons.1 h with rfl | h
    · omega
    · have := leaves_le_leavesL h; omega
theorem leavesL_pos {fs : List (Fm α)} (h : ∀ f ∈ fs, 1 ≤ leaves f) : fs.length ≤ leavesL fs := by
  induction fs with
  | nil => simp
  | cons f fs ih =>
    have h1 := h f List.mem_cons_self
    have h2 := ih fun g hg => h g (List.mem_cons_of_mem _ hg)
    simp [leavesL]; omega
theorem Flat.pos : ∀ {f : Fm α}, Flat f → f ≠ .tru → f ≠ .fls → 1 ≤ leaves f := by
  intro f h
  induction h with
  | tru => intro h; exact absurd rfl h
  | fls => intro _ h; exact absurd rfl h
  | not => intros; simp [leaves]
  | and h1 _ h3 _ ih =>
    intros; rw [leaves]
    have := leavesL_pos fun f hf => ih f hf (h3 f hf).1 (h3 f hf).2
    omega
  | or h1 _ h3 _ ih =>
    intros; rw [leaves]
    have := leavesL_pos fun f hf => ih f hf (h3 f hf).1 (h3 f hf).2
    omega
  | _ => intros; simp [leaves]

theorem leaves_tNot (f : Fm α) : leaves (tNot f) ≤ leaves f + 1 := by
  cases f <;> simp [tNot, leaves] <;> omega

theorem tAddAnd_leaves {c : Bool} {acc a : List (Fm α)} {f : Fm α} (h : tAddAnd c acc f = some a) : leavesL a ≤ leavesL acc + leaves f := by
  unfold tAddAnd at h
  split at h
  · simp at h; subst h; omega
  split at h
  · simp at h
  split at h
  · simp at h; subst h; omega
  · simp at h; subst h; rw [leavesL_append]; simp [leavesL]
theorem tAddOr_leaves {c : Bool} {acc a : List (Fm α)} {f : Fm α} (h : tAddOr c acc f = some a) : leavesL a ≤ leavesL acc + leaves f := by
  unfold tAddOr at h
  split at h
  · simp at h; subst h; omega
  split at h
  · simp at h
  split at h
  · simp at h; subst h; omega
  · simp at h; subst h; rw [leavesL_append]; simp [leavesL]
theorem foldOpt_leaves {step : List (Fm α) → Fm α → Option (List (Fm α))} (hs : ∀ acc f a, step acc f = some a → leavesL a ≤ leavesL acc + leaves f) :
    ∀ {fs acc a : List (Fm α)}, foldOpt step acc fs = some a → leavesL a ≤ leavesL acc + leavesL fs
  | [], acc, a, h => by simp [foldOpt] at h; subst h; simp [leavesL]
  | f :: fs, acc, a, h => by
    simp only [foldOpt] at h
    cases h2 : step acc f with
    | none => simp [h2] at h
    | some a2 =>
      simp only [h2] at h
      have h3 := hs _ _ _ h2
      have h4 := foldOpt_leaves hs h
      rw [leavesL]; omega
theorem tStepAnd_leaves {c : Bool} {acc a : List (Fm α)} {f : Fm α} (h : tStepAnd c acc f = some a) : leavesL a ≤ leavesL acc + leaves f := by
  unfold tStepAnd at h
  split at h
  · rw [leaves]; exact foldOpt_leaves (fun _ _ _ => tAddAnd_leaves) h
  · exact tAddAnd_leaves h
theorem tStepOr_leaves {c : Bool} {acc a : List (Fm α)} {f : Fm α} (h : tStepOr c acc f = some a) : leavesL a ≤ leavesL acc + leaves f := by
  unfold tStepOr at h
  split at h
  · rw [leaves]; exact foldOpt_leaves (fun _ _ _ => tAddOr_leaves) h
  · exact tAddOr_leaves h
theorem leaves_tAnd (c : Bool) (fs : List (Fm α)) : leaves (tAnd c fs) ≤ leavesL fs := by
  unfold tAnd
  split
  · simp [leaves]
  · simp [leaves]
  · rename_i f e
    have := foldOpt_leaves (fun _ _ _ => tStepAnd_leaves) e
    simp [leavesL] at this; exact this
  · rename_i a _ _ e
    have := foldOpt_leaves (fun _ _ _ => tStepAnd_leaves) e
    simp [leavesL] at this; rw [leaves]; exact this
theorem leaves_tOr (c : Bool) (fs : List (Fm α)) : leaves (tOr c fs) ≤ leavesL fs := by
  unfold tOr
  split
  · simp [leaves]
  · simp [leaves]
  · rename_i f e
    have := foldOpt_leaves (fun _ _ _ => tStepOr_leaves) e
    simp [leavesL] at this; exact this
  · rename_i a _ _ e
    have := foldOpt_leaves (fun _ _ _ => tStepOr_leaves) e
    simp [leavesL] at this; rw [leaves]; exact this
theorem leaves_nary (c d : Bool) (fs : List (Fm α)) : leaves (nary c d fs) ≤ leavesL fs := by
  unfold nary
  split
  · exact leaves_tAnd c fs
  · exact leaves_tOr c fs

/-- operands which are neither constants nor operators of the same sort are kept, unless the number of leaves shrinks -/
theorem foldOpt_keep {step : List (Fm α) → Fm α → Option (List (Fm α))} {ok : Fm α → Prop}
    (hs : ∀ acc f a, ok f → step acc f = some a → a = acc ++ [f] ∨ leavesL a < leavesL acc + leaves f) :
    ∀ {fs acc a : List (Fm α)}, (∀ f ∈ fs, ok f) → (∀ acc f a, step acc f = some a → leavesL a ≤ leavesL acc + leaves f) →
      foldOpt step acc fs = some a → a = acc ++ fs ∨ leavesL a < leavesL acc + leavesL fs
  | [], acc, a, _, _, h => by simp [foldOpt] at h; subst h; simp
  | f :: fs, acc, a, ho, hl, h => by
    simp only [foldOpt] at h
    cases h2 : step acc f with
    | none => simp [h2] at h
    | some a2 =>
      simp only [h2] at h
      rw [leavesL]
      rcases hs _ _ _ (ho f List.mem_cons_self) h2 with rfl | h3
      · rcases foldOpt_keep hs (fun g hg => ho g (List.mem_cons_of_mem _ hg)) hl h with rfl | h4
        · left; simp
        · right; rw [leavesL_append] at h4; simp [leavesL] at h4; omega
      · right
        have := foldOpt_leaves hl h
        omega

theorem tAnd_keep {c : Bool} {fs : List (Fm α)} (h : Flat (.and fs)) : tAnd c fs = .and fs ∨ leaves (tAnd c fs) < leavesL fs := by
  obtain ⟨h1, h2, h3, h4⟩ := h.ofAnd
  have hpos : fs.length ≤ leavesL fs := leavesL_pos fun f hf => (h2 f hf).pos (h3 f hf).1 (h3 f hf).2
  cases hr : foldOpt (tStepAnd c) [] fs with
  | none => right; unfold tAnd; rw [hr]; simp [leaves]; omega
  | some a =>
    have hk := foldOpt_keep (step := tStepAnd c) (ok := fun f => 1 ≤ leaves f ∧ f ≠ .tru ∧ ∀ gs, f ≠ .and gs) (fs := fs) (acc := []) (a := a)
      (by
        intro acc f a hf e
        unfold tStepAnd at e
        split at e
        · exact absurd rfl (hf.2.2 _)
        · unfold tAddAnd at e
          rw [if_neg hf.2.1] at e
          split at e
          · cases e
          split at e
          · simp at e; subst e; right; have := hf.1; omega
          · simp at e; subst e; left; rfl)
      (fun f hf => ⟨(h2 f hf).pos (h3 f hf).1 (h3 f hf).2, (h3 f hf).1, fun gs e => h4 gs (e ▸ hf)⟩) (fun _ _ _ => tStepAnd_leaves) hr
    rcases hk with hk | hk
    · left
      unfold tAnd
      rw [hr, hk, List.nil_append]
      match fs, h1 with
      | _ :: _ :: _, _ => rfl
    · right
      simp only [leavesL, Nat.zero_add] at hk
      unfold tAnd
      rw [hr]
      split
      · simp [leaves]; omega
      · simp [leaves]; omega
      · rename_i e; cases e; simpa [leavesL] using hk
      · rename_i e; cases e; rw [leaves]; exact hk
theorem tOr_keep {c : Bool} {fs : List (Fm α)} (h : Flat (.or fs)) : tOr c fs = .or fs ∨ leaves (tOr c fs) < leavesL fs := by
  obtain ⟨h1, h2, h3, h4⟩ := h.ofOr
  have hpos : fs.length ≤ leavesL fs := leavesL_pos fun f hf => (h2 f hf).pos (h3 f hf).1 (h3 f hf).2
  cases hr : foldOpt (tStepOr c) [] fs with
  | none => right; unfold tOr; rw [hr]; simp [leaves]; omega
  | some a =>
    have hk := foldOpt_keep (step := tStepOr c) (ok := fun f => 1 ≤ leaves f ∧ f ≠ .fls ∧ ∀ gs, f ≠ .or gs) (fs := fs) (acc := []) (a := a)
      (by
        intro acc f a hf e
        unfold tStepOr at e
        split at e
        · exact absurd rfl (hf.2.2 _)
        · unfold tAddOr at e
          rw [if_neg hf.2.1] at e
          split at e
          · cases e
          split at e
          · simp at e; subst e; right; have := hf.1; omega
          · simp at e; subst e; left; rfl)
      (fun f hf => ⟨(h2 f hf).pos (h3 f hf).1 (h3 f hf).2, (h3 f hf).2, fun gs e => h4 gs (e ▸ hf)⟩) (fun _ _ _ => tStepOr_leaves) hr
    rcases hk with hk | hk
    · left
      unfold tOr
      rw [hr, hk, List.nil_append]
      match fs, h1 with
      | _ :: _ :: _, _ => rfl
    · right
      simp only [leavesL, Nat.zero_add] at hk
      unfold tOr
      rw [hr]
      split
      · simp [leaves]; omega
      · simp [leaves]; omega
      · rename_i e; cases e; simpa [leavesL] using hk
      · rename_i e; cases e; rw [leaves]; exact hk

/-! ## factoring out -/

theorem maxOcc_inv {m : MaxOcc α} (h : m.cnt ≤ m.seen.count m.fm) (x : Fm α) : (m.add x).cnt ≤ (m.add x).seen.count (m.add x).fm := by
  unfold MaxOcc.add
  dsimp only
  split
  · simp
  · simp only [List.count_cons]; omega
theorem maxOcc_fold : ∀ (xs : List (Fm α)) (m : MaxOcc α), m.cnt ≤ m.seen.count m.fm →
    (xs.foldl MaxOcc.add m).cnt ≤ (xs.foldl MaxOcc.add m).seen.count (xs.foldl MaxOcc.add m).fm ∧ ∀ y, (xs.foldl MaxOcc.add m).seen.count y = m.seen.count y + xs.count y
  | [], m, h => ⟨h, fun y => by simp⟩
  | x :: xs, m, h => by
    rw [List.foldl_cons]
    have := maxOcc_fold xs (m.add x) (maxOcc_inv h x)
    refine ⟨this.1, fun y => ?_⟩
    rw [this.2 y]
    have : (m.add x).seen = x :: m.seen := by unfold MaxOcc.add; dsimp only; split <;> rfl
    rw [this, List.count_cons, List.count_cons]; omega
/-- the chosen subformula occurs at least twice -/
theorem maxOccurring_spec {ops : List (Fm α)} {x : Fm α} (h : maxOccurring ops = some x) : 2 ≤ (ops.flatMap countedIn).count x := by
  unfold maxOccurring at h
  dsimp only at h
  split at h
  · cases h
  · cases h
    have := maxOcc_fold (ops.flatMap countedIn) ⟨[], 0, .fls⟩ (Nat.zero_le _)
    have h2 := this.2 ((ops.flatMap countedIn).foldl MaxOcc.add ⟨[], 0, .fls⟩).fm
    simp only [List.count_nil, Nat.zero_add] at h2
    omega

theorem leavesL_filter (x : Fm α) (gs : List (Fm α)) : leavesL (gs.filter fun g => g ≠ x) + leaves x * gs.count x = leavesL gs := by
  induction gs with
  | nil => simp [leavesL]
  | cons g gs ih =>
    rw [List.filter_cons, List.count_cons]
    by_cases e : g = x
    · subst e; simp [leavesL, Nat.mul_add] at ih ⊢; omega
    · simp [e, leavesL] at ih ⊢; omega

theorem filter_dual {cons d : Bool} {x f : Fm α} {gs : List (Fm α)} (hf : opsOf (!d) f = some gs) (v : α → Bool) :
    (x ∈ gs → (f.eval v = d ↔ x.eval v = d ∨ (nary cons (!d) (gs.filter fun g => g ≠ x)).eval v = d)) ∧
    (x ∉ gs → (f.eval v = d ↔ (nary cons (!d) (gs.filter fun g => g ≠ x)).eval v = d)) := by
  rw [opsOf_dual hf, nary_dual]
  simp only [List.mem_filter, decide_eq_true_eq]
  refine ⟨fun hx => ⟨?_, ?_⟩, fun hx => ⟨?_, ?_⟩⟩
  · rintro ⟨g, hg, h⟩
    by_cases e : g = x
    · exact .inl (e ▸ h)
    · exact .inr ⟨g, ⟨hg, e⟩, h⟩
  · rintro (h | ⟨g, ⟨hg, _⟩, h⟩)
    · exact ⟨x, hx, h⟩
    · exact ⟨g, hg, h⟩
  · rintro ⟨g, hg, h⟩; exact ⟨g, ⟨hg, fun e => hx (e ▸ hg)⟩, h⟩
  · rintro ⟨g, ⟨hg, _⟩, h⟩; exact ⟨g, hg, h⟩

/-- what one operand contributes -/
structure StepOk (d : Bool) (x op : Fm α) (A B : List (Fm α)) : Prop where
  eval : ∀ v, op.eval v = d ↔ (∀ u ∈ B, u.eval v = d) ∧ (x.eval v = d ∨ ∀ m ∈ A, m.eval v = d)
  leaves : leavesL A + leavesL B + leaves x * (countedIn op).count x ≤ leaves op
  flat : ∀ f ∈ A ++ B, Flat f

theorem factorStep_spec {cons d : Bool} {x op : Fm α} (ho : Flat op) (hd : opsOf d op = none) (r : List (Fm α) × List (Fm α)) :
    ∃ A B, factorStep cons d x r op = (r.1 ++ A, r.2 ++ B) ∧ StepOk d x op A B := by
  have hkeep : countedIn op = [] → StepOk d x op [] [op] := fun hc =>
    ⟨fun v => by simp, by simp [hc, leavesL], fun f hf => by simp at hf; exact hf ▸ ho⟩
  have hnary : ∀ gs, opsOf (!d) op = some gs → countedIn op = gs → leaves op = leavesL gs → (∀ g ∈ gs, Flat g) →
      (x ∈ gs → StepOk d x op [nary cons (!d) (gs.filter fun g => g ≠ x)] []) ∧ (x ∉ gs → StepOk d x op [] [nary cons (!d) (gs.filter fun g => g ≠ x)]) := by
    intro gs h1 h2 h3 h4
    have hl := leavesL_filter x gs
    have hn := leaves_nary cons (!d) (gs.filter fun g => g ≠ x)
    have hfl : Flat (nary cons (!d) (gs.filter fun g => g ≠ x)) := flat_nary fun f hf => h4 f (List.mem_filter.1 hf).1
    constructor
    · intro hx
      refine ⟨fun v => ?_, ?_, fun f hf => ?_⟩
      · rw [(filter_dual (cons := cons) h1 v).1 hx]; simp
      · rw [h2, h3]; simp only [leavesL]; omega
      · simp at hf; rw [hf]; simpa using hfl
    · intro hx
      refine ⟨fun v => ?_, ?_, fun f hf => ?_⟩
      · rw [(filter_dual (cons := cons) h1 v).2 hx]; simp
      · rw [h2, h3]; simp only [leavesL]; omega
      · simp at hf; rw [hf]; simpa using hfl
  unfold factorStep
  cases op with
  | lit l =>
    dsimp only
    by_cases e : .lit l = x
    · rw [if_pos e]
      refine ⟨[tConst (!d)], [], by simp, ⟨fun v => ?_, ?_, fun f hf => ?_⟩⟩
      · rw [← e]; simp
      · rw [← e]; simp [countedIn, leavesL, leaves, tConst]; cases d <;> simp [leaves]
      · simp at hf; rw [hf]; unfold tConst; split <;> constructor
    · rw [if_neg e]
      refine ⟨[], [.lit l], by simp, ⟨fun v => by simp, ?_, fun f hf => by simp at hf; exact hf ▸ ho⟩⟩
      have : (countedIn (Fm.lit l)).count x = 0 := by
        simp [countedIn, List.count_cons, e]
      rw [this]; simp [leavesL]
  | and gs =>
    have hd' : d = false := by cases d <;> simp [opsOf] at hd ⊢
    subst hd'
    obtain ⟨k1, k2⟩ := hnary gs rfl rfl (by rw [leaves]) ho.ofAnd.2.1
    dsimp only
    by_cases hx : x ∈ gs
    · rw [if_pos hx]; exact ⟨_, [], by simp, k1 hx⟩
    · rw [if_neg hx]; exact ⟨[], _, by simp, k2 hx⟩
  | or gs =>
    have hd' : d = true := by cases d <;> simp [opsOf] at hd ⊢
    subst hd'
    obtain ⟨k1, k2⟩ := hnary gs rfl rfl (by rw [leaves]) ho.ofOr.2.1
    dsimp only
    by_cases hx : x ∈ gs
    · rw [if_pos hx]; exact ⟨_, [], by simp, k1 hx⟩
    · rw [if_neg hx]; exact ⟨[], _, by simp, k2 hx⟩
  | _ => exact ⟨[], [_], by simp, hkeep rfl⟩

theorem factorFold {cons d : Bool} {x : Fm α} : ∀ {ops : List (Fm α)}, (∀ op ∈ ops, Flat op ∧ opsOf d op = none) → ∀ r : List (Fm α) × List (Fm α),
    ∃ A B, ops.foldl (factorStep cons d x) r = (r.1 ++ A, r.2 ++ B) ∧
      (∀ v, (∀ op ∈ ops, op.eval v = d) ↔ (∀ u ∈ B, u.eval v = d) ∧ (x.eval v = d ∨ ∀ m ∈ A, m.eval v = d)) ∧
      leavesL A + leavesL B + leaves x * (ops.flatMap countedIn).count x ≤ leavesL ops ∧ ∀ f ∈ A ++ B, Flat f
  | [], _, r => ⟨[], [], by simp, by simp, by simp [leavesL], by simp⟩
  | op :: ops, h, r => by
    obtain ⟨A, B, e, hs⟩ := factorStep_spec (cons := cons) (x := x) (h op List.mem_cons_self).1 (h op List.mem_cons_self).2 r
    obtain ⟨A', B', e', h1, h2, h3⟩ := factorFold (x := x) (cons := cons) (fun o ho => h o (List.mem_cons_of_mem _ ho)) (r.1 ++ A, r.2 ++ B)
    refine ⟨A ++ A', B ++ B', ?_, fun v => ?_, ?_, ?_⟩
    · rw [List.foldl_cons, e, e']; simp
    · rw [List.forall_mem_cons, h1 v, hs.eval v]
      simp only [List.mem_append, or_imp, forall_and]
      constructor
      · rintro ⟨⟨a, b⟩, c, d⟩
        refine ⟨⟨a, c⟩, ?_⟩
        rcases b with b | b
        · exact .inl b
        · rcases d with d | d
          · exact .inl d
          · exact .inr ⟨b, d⟩
      · rintro ⟨⟨a, c⟩, b⟩
        rcases b with b | ⟨b, d⟩
        · exact ⟨⟨a, .inl b⟩, c, .inl b⟩
        · exact ⟨⟨a, .inr b⟩, c, .inr d⟩
    · have := hs.leaves
      rw [leavesL_append, leavesL_append, List.flatMap_cons, List.count_append, Nat.mul_add, leavesL]
      omega
    · intro f hf
      simp only [List.mem_append] at hf
      have a := hs.flat f
      have b := h3 f
      simp only [List.mem_append] at a b
      tauto

theorem factorOutOps_spec {cons d : Bool} {ops : List (Fm α)} (h : ∀ op ∈ ops, Flat op ∧ opsOf d op = none) (hc : ∀ op ∈ ops, op ≠ .tru ∧ op ≠ .fls) {g : Fm α}
    (hg : factorOutOps cons d ops = some g) : (∀ v, g.eval v = d ↔ ∀ op ∈ ops, op.eval v = d) ∧ leaves g < leavesL ops ∧ Flat g := by
  unfold factorOutOps at hg
  split at hg
  · cases hg
  rename_i x hx
  obtain ⟨A, B, e, h1, h2, h3⟩ := factorFold (cons := cons) (x := x) h ([], [])
  dsimp only at hg
  rw [e] at hg
  simp only [List.nil_append, Option.some.injEq] at hg
  have hcnt := maxOccurring_spec hx
  have hmem : x ∈ ops.flatMap countedIn := List.count_pos_iff.1 (by omega)
  obtain ⟨op, hop, hxo⟩ := List.mem_flatMap.1 hmem
  have hxf : Flat x ∧ 1 ≤ leaves x := by
    have ho := (h op hop).1
    cases op with
    | lit l => simp [countedIn] at hxo; subst hxo; exact ⟨.lit l, by simp [leaves]⟩
    | and gs =>
      obtain ⟨_, k1, k2, _⟩ := ho.ofAnd
      exact ⟨k1 x hxo, (k1 x hxo).pos (k2 x hxo).1 (k2 x hxo).2⟩
    | or gs =>
      obtain ⟨_, k1, k2, _⟩ := ho.ofOr
      exact ⟨k1 x hxo, (k1 x hxo).pos (k2 x hxo).1 (k2 x hxo).2⟩
    | _ => simp [countedIn] at hxo
  subst hg
  refine ⟨fun v => ?_, ?_, ?_⟩
  · rw [h1 v, nary_iff]
    simp only [List.mem_cons, List.not_mem_nil, or_false, forall_eq_or_imp, forall_eq, nary_iff, nary_dual, exists_eq_or_imp, exists_eq_left]
  · have k1 := leaves_nary cons d [nary cons d B, nary cons (!d) [x, nary cons d A]]
    have k2 := leaves_nary cons d B
    have k3 := leaves_nary cons (!d) [x, nary cons d A]
    have k4 := leaves_nary cons d A
    simp only [leavesL] at k1 k3
    have : leaves x * 2 ≤ leaves x * (ops.flatMap countedIn).count x := Nat.mul_le_mul_left _ hcnt
    omega
  · refine flat_nary fun f hf => ?_
    simp only [List.mem_append] at h3
    rcases List.mem_cons.1 hf with rfl | hf
    · exact flat_nary fun f hf => h3 f (.inr hf)
    · rw [List.mem_singleton.1 hf]
      refine flat_nary fun f hf => ?_
      rcases List.mem_cons.1 hf with rfl | hf
      · exact hxf.1
      · rw [List.mem_singleton.1 hf]
        exact flat_nary fun f hf => h3 f (.inl hf)

theorem factorOutTop_spec {cons : Bool} {less : Fm α → Fm α → Bool} {f : Fm α} (h : Flat f) :
    (∀ v, (factorOutTop cons less f).eval v = f.eval v) ∧ (factorOutTop cons less f = f ∨ leaves (factorOutTop cons less f) < leaves f) ∧
      Flat (factorOutTop cons less f) := by
  have key : ∀ (d : Bool) (ops : List (Fm α)), opsOf d f = some ops → leaves f = leavesL ops → (∀ op ∈ ops, Flat op ∧ opsOf d op = none) →
      (∀ op ∈ ops, op ≠ .tru ∧ op ≠ .fls) →
      (∀ v, (factorOutSimplify cons d less f ops).eval v = f.eval v) ∧
        (factorOutSimplify cons d less f ops = f ∨ leaves (factorOutSimplify cons d less f ops) < leaves f) ∧ Flat (factorOutSimplify cons d less f ops) := by
    intro d ops h1 h2 h3 h4
    unfold factorOutSimplify
    split
    · exact ⟨fun _ => rfl, .inl rfl, h⟩
    · rename_i g hg
      split
      · exact ⟨fun _ => rfl, .inl rfl, h⟩
      · obtain ⟨k1, k2, k3⟩ := factorOutOps_spec h3 h4 hg
        exact ⟨fun v => bool_eq_of_iff (d := d) (by rw [k1 v, opsOf_iff h1]), .inr (by omega), k3⟩
  unfold factorOutTop
  split
  · rename_i ops
    refine key true ops rfl (by rw [leaves]) (fun op hop => ⟨h.ofAnd.2.1 op hop, ?_⟩) h.ofAnd.2.2.1
    cases op with
    | and gs => exact absurd hop (h.ofAnd.2.2.2 gs)
    | _ => rfl
  · rename_i ops
    refine key false ops rfl (by rw [leaves]) (fun op hop => ⟨h.ofOr.2.1 op hop, ?_⟩) h.ofOr.2.2.1
    cases op with
    | or gs => exact absurd hop (h.ofOr.2.2.2 gs)
    | _ => rfl
  · exact ⟨fun _ => rfl, .inl rfl, h⟩

/-- the result of a call: equivalent, and smaller unless unchanged -/
structure FOk (f g : Fm α) : Prop where
  eval : ∀ v, g.eval v = f.eval v
  less : g = f ∨ leaves g < leaves f
  flat : Flat g

theorem allSome_spec {f : Fm α → Option (Fm α)} : ∀ {fs : List (Fm α)}, (∀ x ∈ fs, ∃ y, f x = some y ∧ FOk x y) →
    ∃ gs, allSome (fs.map f) = some gs ∧ (∀ v, gs.map (Fm.eval v) = fs.map (Fm.eval v)) ∧ (gs = fs ∨ leavesL gs < leavesL fs) ∧ (∀ g ∈ gs, Flat g)
  | [], _ => ⟨[], rfl, fun _ => rfl, .inl rfl, by simp⟩
  | x :: xs, h => by
    obtain ⟨y, hy, ho⟩ := h x List.mem_cons_self
    obtain ⟨gs, e, h1, h2, h3⟩ := allSome_spec fun z hz => h z (List.mem_cons_of_mem _ hz)
    refine ⟨y :: gs, ?_, fun v => ?_, ?_, ?_⟩
    · rw [List.map_cons, hy, allSome, e]; rfl
    · rw [List.map_cons, List.map_cons, h1 v, ho.eval v]
    · rw [leavesL, leavesL]
      rcases ho.less with e1 | e1 <;> rcases h2 with e2 | e2
      · left; rw [e1, e2]
      · right; rw [e1]; omega
      · right; rw [e2]; omega
      · right; omega
    · intro g hg
      rcases List.mem_cons.1 hg with rfl | hg
      · exact ho.flat
      · exact h3 g hg

theorem map_eval_all {gs fs : List (Fm α)} {v : α → Bool} (h : gs.map (Fm.eval v) = fs.map (Fm.eval v)) :
    gs.all (Fm.eval v) = fs.all (Fm.eval v) ∧ gs.any (Fm.eval v) = fs.any (Fm.eval v) := by
  have h1 : ∀ l : List (Fm α), l.all (Fm.eval v) = (l.map (Fm.eval v)).all id := fun l => by rw [List.all_map]; rfl
  have h2 : ∀ l : List (Fm α), l.any (Fm.eval v) = (l.map (Fm.eval v)).any id := fun l => by rw [List.any_map]; rfl
  rw [h1, h1, h2, h2, h]; exact ⟨rfl, rfl⟩

theorem factorOut_spec (cons : Bool) (less : Fm α → Fm α → Bool) : ∀ (n : Nat) (f : Fm α), Flat f → leaves f < n →
    ∃ g, factorOut cons less n f = some g ∧ FOk f g
  | 0, _, _, h => absurd h (by omega)
  | n + 1, f, hf, hn => by
    have hleaf : ∀ {g : Fm α}, FOk f g → ∃ r, (if g = f then some g else factorOut cons less n g) = some r ∧ FOk f r := by
      intro g hg
      by_cases e : g = f
      · rw [if_pos e]; exact ⟨g, rfl, hg⟩
      · rw [if_neg e]
        have hl := hg.less.resolve_left e
        obtain ⟨r, hr, hr'⟩ := factorOut_spec cons less n g hg.flat (by omega)
        refine ⟨r, hr, ⟨fun v => by rw [hr'.eval, hg.eval], .inr ?_, hr'.flat⟩⟩
        rcases hr'.less with e | e
        · rw [e]; exact hl
        · omega
    have hnary : ∀ (fs : List (Fm α)), 2 ≤ fs.length → (∀ g ∈ fs, Flat g) → (∀ g ∈ fs, g ≠ .tru ∧ g ≠ .fls) → leavesL fs = leaves f →
        ∃ gs, allSome (fs.map (factorOut cons less n)) = some gs ∧ (∀ v, gs.map (Fm.eval v) = fs.map (Fm.eval v)) ∧ (gs = fs ∨ leavesL gs < leavesL fs) ∧
          (∀ g ∈ gs, Flat g) := by
      intro fs h2 h3 h4 h5
      refine allSome_spec fun g hg => factorOut_spec cons less n g (h3 g hg) ?_
      -- an operand has fewer leaves
      obtain ⟨s, t, rfl⟩ := List.append_of_mem hg
      have hlen : 1 ≤ (s ++ t).length := by simp at h2 ⊢; omega
      have hp : (s ++ t).length ≤ leavesL (s ++ t) := leavesL_pos fun x hx => by
        have hx' : x ∈ s ++ g :: t := by simp at hx ⊢; tauto
        exact (h3 x hx').pos (h4 x hx').1 (h4 x hx').2
      rw [leavesL_append] at h5 hp
      rw [leavesL] at h5
      omega
    cases f with
    | and fs =>
      obtain ⟨h1, h2, h3, h4⟩ := hf.ofAnd
      obtain ⟨gs, e, k1, k2, k3⟩ := hnary fs h1 h2 h3 (by rw [leaves])
      rw [factorOut]
      simp only [e, Option.map_some]
      refine hleaf ?_
      have t := factorOutTop_spec (cons := cons) (less := less) (flat_tAnd (cons := cons) k3)
      refine ⟨fun v => ?_, ?_, t.2.2⟩
      · rw [t.1 v, eval_tAnd, Fm.eval_and, (map_eval_all (k1 v)).1]
      · have hA : tAnd cons gs = .and fs ∨ leaves (tAnd cons gs) < leaves (.and fs) := by
          rw [leaves]
          rcases k2 with rfl | k2
          · exact tAnd_keep hf
          · right; have := leaves_tAnd cons gs; omega
        rcases hA with hA | hA <;> rcases t.2.1 with e | e
        · left; rw [e, hA]
        · right; rw [hA] at e; rw [hA]; exact e
        · right; rw [e]; exact hA
        · right; omega
    | or fs =>
      obtain ⟨h1, h2, h3, h4⟩ := hf.ofOr
      obtain ⟨gs, e, k1, k2, k3⟩ := hnary fs h1 h2 h3 (by rw [leaves])
      rw [factorOut]
      simp only [e, Option.map_some]
      refine hleaf ?_
      have t := factorOutTop_spec (cons := cons) (less := less) (flat_tOr (cons := cons) k3)
      refine ⟨fun v => ?_, ?_, t.2.2⟩
      · rw [t.1 v, eval_tOr, Fm.eval_or, (map_eval_all (k1 v)).2]
      · have hA : tOr cons gs = .or fs ∨ leaves (tOr cons gs) < leaves (.or fs) := by
          rw [leaves]
          rcases k2 with rfl | k2
          · exact tOr_keep hf
          · right; have := leaves_tOr cons gs; omega
        rcases hA with hA | hA <;> rcases t.2.1 with e | e
        · left; rw [e, hA]
        · right; rw [hA] at e; rw [hA]; exact e
        · right; rw [e]; exact hA
        · right; omega
    | not f =>
      have hff : Flat f ∧ tNot f = .not f := by cases hf with | not h1 h2 => exact ⟨h1, h2⟩
      rw [leaves] at hn
      obtain ⟨r, hr, hr'⟩ := factorOut_spec cons less n f hff.1 (by omega)
      rw [factorOut]
      simp only [hr, Option.map_some]
      refine hleaf ⟨fun v => by rw [eval_tNot, hr'.eval, Fm.eval_not], ?_, flat_tNot hr'.flat⟩
      rcases hr'.less with rfl | e
      · left; exact hff.2
      · right; have := leaves_tNot r; rw [leaves]; omega
    | _ =>
      rw [factorOut] <;> first
        | exact hleaf ⟨fun _ => rfl, .inl rfl, hf⟩
        | (intro _ h; cases h)

end Verif.Simpl
