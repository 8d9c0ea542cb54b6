import Verif.Factory.Tree
/-! Elimination principles for the results of `tAnd` and `tOr`. -/
namespace Verif.Tree
open Verif
variable {α : Type} [DecidableEq α]

/-- what can be an operand of the conjunction built from `fs` -/
def AndOp (fs : List (Fm α)) (g : Fm α) : Prop :=
  g ≠ .tru ∧ g ≠ .fls ∧ ((g ∈ fs ∧ ∀ gs, g ≠ .and gs) ∨ ∃ gs, .and gs ∈ fs ∧ g ∈ gs)
/-- what can be an operand of the disjunction built from `fs` -/
def OrOp (fs : List (Fm α)) (g : Fm α) : Prop :=
  g ≠ .tru ∧ g ≠ .fls ∧ ((g ∈ fs ∧ ∀ gs, g ≠ .or gs) ∨ ∃ gs, .or gs ∈ fs ∧ g ∈ gs)

theorem tAddAnd_inv {c : Bool} {P : Fm α → Prop} {acc a : List (Fm α)} {f : Fm α} (h : tAddAnd c acc f = some a)
    (hf : f ≠ .tru → f ≠ .fls → P f) (ha : acc.Nodup ∧ ∀ g ∈ acc, P g) : a.Nodup ∧ ∀ g ∈ a, P g := by
  unfold tAddAnd at h
  split at h
  · simp at h; subst h; exact ha
  rename_i h1
  split at h
  · simp at h
  rename_i h2
  split at h
  · simp at h; subst h; exact ha
  · rename_i h3
    simp at h; subst h
    refine ⟨List.nodup_append.2 ⟨ha.1, by simp, ?_⟩, ?_⟩
    · intro x hx y hy; simp at hy; subst hy; rintro rfl; exact h3 hx
    · intro g hg
      rcases List.mem_append.1 hg with hg | hg
      · exact ha.2 g hg
      · simp at hg; subst hg; exact hf h1 (fun h => h2 (.inl h))
theorem tAddOr_inv {c : Bool} {P : Fm α → Prop} {acc a : List (Fm α)} {f : Fm α} (h : tAddOr c acc f = some a)
    (hf : f ≠ .tru → f ≠ .fls → P f) (ha : acc.Nodup ∧ ∀ g ∈ acc, P g) : a.Nodup ∧ ∀ g ∈ a, P g := by
  unfold tAddOr at h
  split at h
  · simp at h; subst h; exact ha
  rename_i h1
  split at h
  · simp at h
  rename_i h2
  split at h
  · simp at h; subst h; exact ha
  · rename_i h3
    simp at h; subst h
    refine ⟨List.nodup_append.2 ⟨ha.1, by simp, ?_⟩, ?_⟩
    · intro x hx y hy; simp at hy; subst hy; rintro rfl; exact h3 hx
    · intro g hg
      rcases List.mem_append.1 hg with hg | hg
      · exact ha.2 g hg
      · simp at hg; subst hg; exact hf (fun h => h2 (.inl h)) h1

theorem tAnd_condensed {c : Bool} {fs a : List (Fm α)} (h : foldOpt (tStepAnd c) [] fs = some a) :
    a.Nodup ∧ ∀ g ∈ a, AndOp fs g := by
  refine foldOpt_inv (P := fun a : List (Fm α) => a.Nodup ∧ ∀ g ∈ a, AndOp fs g) ?_ (by simp) h
  intro a f a' hf ha e
  unfold tStepAnd at e
  split at e
  · rename_i gs
    refine foldOpt_inv (P := fun a : List (Fm α) => a.Nodup ∧ ∀ g ∈ a, AndOp fs g) ?_ ha e
    intro a g a' hg ha e
    exact tAddAnd_inv e (fun h1 h2 => ⟨h1, h2, .inr ⟨gs, hf, hg⟩⟩) ha
  · rename_i hn
    exact tAddAnd_inv e (fun h1 h2 => ⟨h1, h2, .inl ⟨hf, hn⟩⟩) ha
theorem tOr_condensed {c : Bool} {fs a : List (Fm α)} (h : foldOpt (tStepOr c) [] fs = some a) :
    a.Nodup ∧ ∀ g ∈ a, OrOp fs g := by
  refine foldOpt_inv (P := fun a : List (Fm α) => a.Nodup ∧ ∀ g ∈ a, OrOp fs g) ?_ (by simp) h
  intro a f a' hf ha e
  unfold tStepOr at e
  split at e
  · rename_i gs
    refine foldOpt_inv (P := fun a : List (Fm α) => a.Nodup ∧ ∀ g ∈ a, OrOp fs g) ?_ ha e
    intro a g a' hg ha e
    exact tAddOr_inv e (fun h1 h2 => ⟨h1, h2, .inr ⟨gs, hf, hg⟩⟩) ha
  · rename_i hn
    exact tAddOr_inv e (fun h1 h2 => ⟨h1, h2, .inl ⟨hf, hn⟩⟩) ha

theorem tAnd_elim {P : Fm α → Prop} {c : Bool} {fs : List (Fm α)} (ht : P .tru) (hf : P .fls)
    (h1 : ∀ g, AndOp fs g → P g) (h2 : ∀ a, 2 ≤ a.length → a.Nodup → (∀ g ∈ a, AndOp fs g) → P (.and a)) : P (tAnd c fs) := by
  unfold tAnd
  split
  · exact hf
  · exact ht
  · rename_i f e; exact h1 f ((tAnd_condensed e).2 f (by simp))
  · rename_i a hn1 hn2 e
    have := tAnd_condensed e
    refine h2 a ?_ this.1 this.2
    match a, hn1, hn2 with
    | [], h, _ => exact absurd rfl h
    | [x], _, h => exact absurd rfl (h x)
    | _ :: _ :: _, _, _ => simp
theorem tOr_elim {P : Fm α → Prop} {c : Bool} {fs : List (Fm α)} (ht : P .tru) (hf : P .fls)
    (h1 : ∀ g, OrOp fs g → P g) (h2 : ∀ a, 2 ≤ a.length → a.Nodup → (∀ g ∈ a, OrOp fs g) → P (.or a)) : P (tOr c fs) := by
  unfold tOr
  split
  · exact ht
  · exact hf
  · rename_i f e; exact h1 f ((tOr_condensed e).2 f (by simp))
  · rename_i a hn1 hn2 e
    have := tOr_condensed e
    refine h2 a ?_ this.1 this.2
    match a, hn1, hn2 with
    | [], h, _ => exact absurd rfl h
    | [x], _, h => exact absurd rfl (h x)
    | _ :: _ :: _, _, _ => simp

end Verif.Tree
