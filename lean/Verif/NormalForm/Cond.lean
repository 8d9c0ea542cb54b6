import Verif.NormalForm.Lemmas
/-! Results of the NNF are hereditarily condensed; the NNF is idempotent. -/
namespace Verif.NF
open Verif Verif.Tree Verif.Spec
variable {α : Type} [DecidableEq α]

/-- no complementary operands unless the factory conserves them -/
def NoCompl (c : Bool) (fs : List (Fm α)) : Prop := c = false → ∀ f ∈ fs, tNot f ∉ fs

/-- hereditarily condensed: what the simplifying constructors build from literals -/
inductive Cnd (c : Bool) : Fm α → Prop
  | lit (l : Lit α) : Cnd c (.lit l)
  | and {fs : List (Fm α)} : 2 ≤ fs.length → fs.Nodup → NoCompl c fs → (∀ f ∈ fs, ∀ gs, f ≠ .and gs) → (∀ f ∈ fs, Cnd c f) → Cnd c (.and fs)
  | or {fs : List (Fm α)} : 2 ≤ fs.length → fs.Nodup → NoCompl c fs → (∀ f ∈ fs, ∀ gs, f ≠ .or gs) → (∀ f ∈ fs, Cnd c f) → Cnd c (.or fs)

/-- a constant or condensed -/
def CndC (c : Bool) (f : Fm α) : Prop := f = .tru ∨ f = .fls ∨ Cnd c f

omit [DecidableEq α] in
theorem Cnd.core {c : Bool} {f : Fm α} (h : Cnd c f) : core f = true := by
  induction h with
  | lit l => simp
  | and h1 _ _ _ _ ih => simp only [core_and, Bool.and_eq_true, decide_eq_true_eq, List.all_eq_true]; exact ⟨h1, ih⟩
  | or h1 _ _ _ _ ih => simp only [core_or, Bool.and_eq_true, decide_eq_true_eq, List.all_eq_true]; exact ⟨h1, ih⟩
omit [DecidableEq α] in
theorem CndC.coreC {c : Bool} {f : Fm α} (h : CndC c f) : CoreC f := h.imp id (Or.imp id Cnd.core)

omit [DecidableEq α] in
theorem core_tNot_tNot {f : Fm α} (h : core f = true) : tNot (tNot f) = f := by
  cases f <;> simp [Verif.NF.core] at h <;> simp [tNot, Lit.neg]
omit [DecidableEq α] in
theorem core_tNot_ne {f : Fm α} (h : core f = true) : tNot f ≠ f := by
  cases f with
  | lit l => obtain ⟨x, p⟩ := l; simp [tNot, Lit.neg]
  | _ => simp [Verif.NF.core] at h <;> simp [tNot]
omit [DecidableEq α] in
theorem core_ne_const {f : Fm α} (h : core f = true) : f ≠ .tru ∧ f ≠ .fls := by
  cases f <;> simp [Verif.NF.core] at h ⊢

omit [DecidableEq α] in
theorem noCompl_snoc {c : Bool} {fs : List (Fm α)} {f : Fm α} (h : NoCompl c fs) (hf : core f = true) (hc : ∀ g ∈ fs, core g = true)
    (hn : ¬(c = false ∧ tNot f ∈ fs)) : NoCompl c (fs ++ [f]) := by
  intro e g hg h1
  have hn : tNot f ∉ fs := fun h => hn ⟨e, h⟩
  simp only [List.mem_append, List.mem_singleton] at hg h1
  rcases hg with hg | rfl
  · rcases h1 with h1 | h1
    · exact h e g hg h1
    · apply hn; rw [← h1, core_tNot_tNot (hc g hg)]; exact hg
  · rcases h1 with h1 | h1
    · exact hn h1
    · exact core_tNot_ne hf h1

theorem tAddAnd_noCompl {c : Bool} {acc a : List (Fm α)} {f : Fm α} (h : tAddAnd c acc f = some a) (hf : CoreC f)
    (ha : NoCompl c acc ∧ ∀ g ∈ acc, core g = true) : NoCompl c a ∧ ∀ g ∈ a, core g = true := by
  unfold tAddAnd at h
  split at h
  · simp at h; subst h; exact ha
  rename_i h1
  split at h
  · simp at h
  rename_i h2
  split at h
  · simp at h; subst h; exact ha
  · simp at h; subst h
    have hf : core f = true := (hf.resolve_left h1).resolve_left (fun h => h2 (.inl h))
    refine ⟨noCompl_snoc ha.1 hf ha.2 (fun h => h2 (.inr h)), ?_⟩
    intro g hg
    rcases List.mem_append.1 hg with hg | hg
    · exact ha.2 g hg
    · simp at hg; subst hg; exact hf
theorem tAddOr_noCompl {c : Bool} {acc a : List (Fm α)} {f : Fm α} (h : tAddOr c acc f = some a) (hf : CoreC f)
    (ha : NoCompl c acc ∧ ∀ g ∈ acc, core g = true) : NoCompl c a ∧ ∀ g ∈ a, core g = true := by
  unfold tAddOr at h
  split at h
  · simp at h; subst h; exact ha
  rename_i h1
  split at h
  · simp at h
  rename_i h2
  split at h
  · simp at h; subst h; exact ha
  · simp at h; subst h
    have hf : core f = true := (hf.resolve_left (fun h => h2 (.inl h))).resolve_left h1
    refine ⟨noCompl_snoc ha.1 hf ha.2 (fun h => h2 (.inr h)), ?_⟩
    intro g hg
    rcases List.mem_append.1 hg with hg | hg
    · exact ha.2 g hg
    · simp at hg; subst hg; exact hf

omit [DecidableEq α] in
theorem coreC_and_mem {gs : List (Fm α)} (h : CoreC (.and gs)) : ∀ g ∈ gs, core g = true := by
  simp only [CoreC, reduceCtorEq, false_or, core_and, Bool.and_eq_true, List.all_eq_true] at h; exact h.2
omit [DecidableEq α] in
theorem coreC_or_mem {gs : List (Fm α)} (h : CoreC (.or gs)) : ∀ g ∈ gs, core g = true := by
  simp only [CoreC, reduceCtorEq, false_or, core_or, Bool.and_eq_true, List.all_eq_true] at h; exact h.2

theorem foldAnd_noCompl {c : Bool} {fs a : List (Fm α)} (hf : ∀ f ∈ fs, CoreC f) (h : foldOpt (tStepAnd c) [] fs = some a) : NoCompl c a := by
  refine (foldOpt_inv (P := fun a : List (Fm α) => NoCompl c a ∧ ∀ g ∈ a, core g = true) ?_ ⟨by simp [NoCompl], by simp⟩ h).1
  intro a f a' hm ha e
  unfold tStepAnd at e
  split at e
  · refine foldOpt_inv (P := fun a : List (Fm α) => NoCompl c a ∧ ∀ g ∈ a, core g = true) ?_ ha e
    intro a g a' hg ha e
    exact tAddAnd_noCompl e (.inr (.inr (coreC_and_mem (hf _ hm) g hg))) ha
  · exact tAddAnd_noCompl e (hf _ hm) ha
theorem foldOr_noCompl {c : Bool} {fs a : List (Fm α)} (hf : ∀ f ∈ fs, CoreC f) (h : foldOpt (tStepOr c) [] fs = some a) : NoCompl c a := by
  refine (foldOpt_inv (P := fun a : List (Fm α) => NoCompl c a ∧ ∀ g ∈ a, core g = true) ?_ ⟨by simp [NoCompl], by simp⟩ h).1
  intro a f a' hm ha e
  unfold tStepOr at e
  split at e
  · refine foldOpt_inv (P := fun a : List (Fm α) => NoCompl c a ∧ ∀ g ∈ a, core g = true) ?_ ha e
    intro a g a' hg ha e
    exact tAddOr_noCompl e (.inr (.inr (coreC_or_mem (hf _ hm) g hg))) ha
  · exact tAddOr_noCompl e (hf _ hm) ha

omit [DecidableEq α] in
theorem Cnd.and_inv {c : Bool} {gs : List (Fm α)} (h : Cnd c (.and gs)) : (∀ g ∈ gs, Cnd c g) ∧ ∀ g ∈ gs, ∀ hs, g ≠ .and hs := by
  cases h with | and _ _ _ h1 h2 => exact ⟨h2, h1⟩
omit [DecidableEq α] in
theorem Cnd.or_inv {c : Bool} {gs : List (Fm α)} (h : Cnd c (.or gs)) : (∀ g ∈ gs, Cnd c g) ∧ ∀ g ∈ gs, ∀ hs, g ≠ .or hs := by
  cases h with | or _ _ _ h1 h2 => exact ⟨h2, h1⟩

theorem cndC_tAnd {c : Bool} {fs : List (Fm α)} (hf : ∀ f ∈ fs, CndC c f) : CndC c (tAnd c fs) := by
  have key : ∀ g, AndOp fs g → Cnd c g ∧ ∀ gs, g ≠ .and gs := by
    rintro g ⟨h1, h2, ⟨h3, h4⟩ | ⟨gs, h3, h4⟩⟩
    · exact ⟨((hf g h3).resolve_left h1).resolve_left h2, h4⟩
    · have : Cnd c (.and gs) := ((hf _ h3).resolve_left (by simp)).resolve_left (by simp)
      exact ⟨this.and_inv.1 g h4, this.and_inv.2 g h4⟩
  unfold tAnd
  split
  · exact .inr (.inl rfl)
  · exact .inl rfl
  · rename_i f e; exact .inr (.inr (key f ((tAnd_condensed e).2 f (by simp))).1)
  · rename_i a hn1 hn2 e
    have := tAnd_condensed e
    refine .inr (.inr (.and ?_ this.1 (foldAnd_noCompl (fun f h => (hf f h).coreC) e) (fun f h => (key f (this.2 f h)).2) (fun f h => (key f (this.2 f h)).1)))
    match a, hn1, hn2 with
    | [], h, _ => exact absurd rfl h
    | [x], _, h => exact absurd rfl (h x)
    | _ :: _ :: _, _, _ => simp
theorem cndC_tOr {c : Bool} {fs : List (Fm α)} (hf : ∀ f ∈ fs, CndC c f) : CndC c (tOr c fs) := by
  have key : ∀ g, OrOp fs g → Cnd c g ∧ ∀ gs, g ≠ .or gs := by
    rintro g ⟨h1, h2, ⟨h3, h4⟩ | ⟨gs, h3, h4⟩⟩
    · exact ⟨((hf g h3).resolve_left h1).resolve_left h2, h4⟩
    · have : Cnd c (.or gs) := ((hf _ h3).resolve_left (by simp)).resolve_left (by simp)
      exact ⟨this.or_inv.1 g h4, this.or_inv.2 g h4⟩
  unfold tOr
  split
  · exact .inl rfl
  · exact .inr (.inl rfl)
  · rename_i f e; exact .inr (.inr (key f ((tOr_condensed e).2 f (by simp))).1)
  · rename_i a hn1 hn2 e
    have := tOr_condensed e
    refine .inr (.inr (.or ?_ this.1 (foldOr_noCompl (fun f h => (hf f h).coreC) e) (fun f h => (key f (this.2 f h)).2) (fun f h => (key f (this.2 f h)).1)))
    match a, hn1, hn2 with
    | [], h, _ => exact absurd rfl h
    | [x], _, h => exact absurd rfl (h x)
    | _ :: _ :: _, _, _ => simp

/-! a condensed operand list is left as it is -/

theorem foldAnd_self {c : Bool} : ∀ (fs acc : List (Fm α)), (acc ++ fs).Nodup → NoCompl c (acc ++ fs) → (∀ f ∈ fs, core f = true) →
    (∀ f ∈ fs, ∀ gs, f ≠ .and gs) → foldOpt (tStepAnd c) acc fs = some (acc ++ fs)
  | [], acc, _, _, _, _ => by simp [foldOpt]
  | f :: fs, acc, hn, hc, hk, ha => by
    have e : tStepAnd c acc f = some (acc ++ [f]) := by
      have h1 := core_ne_const (hk f (by simp))
      have h2 := ha f (by simp)
      have h3 : f ∉ acc := fun h => by
        rw [List.nodup_append] at hn
        exact hn.2.2 f h f (by simp) rfl
      have h4 : ¬(c = false ∧ tNot f ∈ acc) := fun h => hc h.1 f (by simp) (by simp [h.2])
      unfold tStepAnd
      split
      · rename_i gs; exact absurd rfl (h2 gs)
      · unfold tAddAnd; rw [if_neg h1.1, if_neg (by simp only [h1.2, false_or]; exact h4), if_neg h3]
    rw [foldOpt, e]
    have := foldAnd_self (c := c) fs (acc ++ [f]) (by simpa using hn) (by simpa using hc) (fun g hg => hk g (by simp [hg]))
      (fun g hg => ha g (by simp [hg]))
    simpa using this
theorem foldOr_self {c : Bool} : ∀ (fs acc : List (Fm α)), (acc ++ fs).Nodup → NoCompl c (acc ++ fs) → (∀ f ∈ fs, core f = true) →
    (∀ f ∈ fs, ∀ gs, f ≠ .or gs) → foldOpt (tStepOr c) acc fs = some (acc ++ fs)
  | [], acc, _, _, _, _ => by simp [foldOpt]
  | f :: fs, acc, hn, hc, hk, ha => by
    have e : tStepOr c acc f = some (acc ++ [f]) := by
      have h1 := core_ne_const (hk f (by simp))
      have h2 := ha f (by simp)
      have h3 : f ∉ acc := fun h => by
        rw [List.nodup_append] at hn
        exact hn.2.2 f h f (by simp) rfl
      have h4 : ¬(c = false ∧ tNot f ∈ acc) := fun h => hc h.1 f (by simp) (by simp [h.2])
      unfold tStepOr
      split
      · rename_i gs; exact absurd rfl (h2 gs)
      · unfold tAddOr; rw [if_neg h1.2, if_neg (by simp only [h1.1, false_or]; exact h4), if_neg h3]
    rw [foldOpt, e]
    have := foldOr_self (c := c) fs (acc ++ [f]) (by simpa using hn) (by simpa using hc) (fun g hg => hk g (by simp [hg]))
      (fun g hg => ha g (by simp [hg]))
    simpa using this

theorem tAnd_self {c : Bool} {fs : List (Fm α)} (h : Cnd c (.and fs)) : tAnd c fs = .and fs := by
  cases h with
  | and h1 h2 h3 h4 h5 =>
    have := foldAnd_self (c := c) fs [] (by simpa using h2) (by simpa using h3) (fun f hf => (h5 f hf).core) h4
    unfold tAnd
    rw [this]
    match fs, h1 with
    | [], h => simp at h
    | [x], h => simp at h
    | _ :: _ :: _, _ => rfl
theorem tOr_self {c : Bool} {fs : List (Fm α)} (h : Cnd c (.or fs)) : tOr c fs = .or fs := by
  cases h with
  | or h1 h2 h3 h4 h5 =>
    have := foldOr_self (c := c) fs [] (by simpa using h2) (by simpa using h3) (fun f hf => (h5 f hf).core) h4
    unfold tOr
    rw [this]
    match fs, h1 with
    | [], h => simp at h
    | [x], h => simp at h
    | _ :: _ :: _, _ => rfl

/-- the NNF leaves condensed formulas as they are -/
theorem nnf_id {c : Bool} {enc : Fm α → Fm α} {f : Fm α} (h : Cnd c f) : nnf c enc f true = f := by
  induction h with
  | lit l => simp [nnf]
  | @and fs h1 h2 h3 h4 h5 ih =>
    rw [nnf, if_pos rfl, nnfL_eq, show fs.map (fun f => nnf c enc f true) = fs from by
      conv => rhs; rw [← List.map_id fs]
      exact List.map_congr_left ih]
    exact tAnd_self (.and h1 h2 h3 h4 h5)
  | @or fs h1 h2 h3 h4 h5 ih =>
    rw [nnf, if_pos rfl, nnfL_eq, show fs.map (fun f => nnf c enc f true) = fs from by
      conv => rhs; rw [← List.map_id fs]
      exact List.map_congr_left ih]
    exact tOr_self (.or h1 h2 h3 h4 h5)

omit [DecidableEq α] in
theorem CndC.lit (c : Bool) (l : Lit α) : CndC c (.lit l) := .inr (.inr (.lit l))

/-- the NNF of a formula without constraints is condensed -/
theorem nnf_cnd {c : Bool} {enc : Fm α → Fm α} (f : Fm α) (h : f.pbFree = true) : ∀ p, CndC c (nnf c enc f p) := by
  induction f using Fm.ind with
  | hf => intro p; rw [nnf]; cases p <;> simp [CndC, tNot]
  | ht => intro p; rw [nnf]; cases p <;> simp [CndC, tNot]
  | hl l => intro p; rw [nnf]; cases p <;> simp [tNot] <;> exact .lit c _
  | hn f ih => intro p; rw [nnf]; exact ih (by simpa using h) _
  | ha fs ih =>
    intro p
    simp at h
    rw [nnf, nnfL_eq]
    have : ∀ g ∈ fs.map (fun f => nnf c enc f p), CndC c g := by
      simp only [List.mem_map]; rintro _ ⟨f, hf, rfl⟩; exact ih f hf (h f hf) p
    split
    · exact cndC_tAnd this
    · exact cndC_tOr this
  | ho fs ih =>
    intro p
    simp at h
    rw [nnf, nnfL_eq]
    have : ∀ g ∈ fs.map (fun f => nnf c enc f p), CndC c g := by
      simp only [List.mem_map]; rintro _ ⟨f, hf, rfl⟩; exact ih f hf (h f hf) p
    split
    · exact cndC_tOr this
    · exact cndC_tAnd this
  | hi f g h1 h2 =>
    intro p
    simp at h
    rw [nnf]
    split
    · exact cndC_tOr (by simp [h1 h.1, h2 h.2])
    · exact cndC_tAnd (by simp [h1 h.1, h2 h.2])
  | he f g h1 h2 =>
    intro p
    simp at h
    rw [nnf]
    have two : ∀ {a b : Fm α}, CndC c a → CndC c b → CndC c (tOr c [a, b]) := fun ha hb => cndC_tOr (by simp [ha, hb])
    split <;> refine cndC_tAnd ?_ <;> simp only [List.mem_cons, List.not_mem_nil, or_false] <;> rintro _ (rfl | rfl) <;>
      exact two (h1 h.1 _) (h2 h.2 _)
  | hc c k xs => simp at h
  | hp c k ts => simp at h

/-- NNF is idempotent -/
theorem nnf_idem {c : Bool} {enc : Fm α → Fm α} (f : Fm α) (h : f.pbFree = true) (p : Bool) :
    nnf c enc (nnf c enc f p) true = nnf c enc f p := by
  rcases nnf_cnd (enc := enc) f h p with e | e | e
  · rw [e]; simp [nnf]
  · rw [e]; simp [nnf]
  · exact nnf_id e

end Verif.NF
