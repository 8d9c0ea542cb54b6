import Verif.PB.Encode
import Verif.Encoding.CCBase
/-! # Exactness of the sequential weight counter -/
set_option linter.unusedSectionVars false
namespace Verif.PB
open Verif Verif.Enc
variable {α : Type}

/-- the weighted sum -/
def wsum (v : EV α → Bool) : WTerms α → Nat
  | [] => 0
  | t :: ts => (if t.2.eval v then t.1 else 0) + wsum v ts

theorem wsum_append (v : EV α → Bool) (a b : WTerms α) : wsum v (a ++ b) = wsum v a + wsum v b := by
  induction a with
  | nil => simp [wsum]
  | cons t a ih => simp only [List.cons_append, wsum, ih]; omega
theorem wsum_congr {v w : EV α → Bool} {ts : WTerms α} (h : ∀ t ∈ ts, v t.2.var = w t.2.var) : wsum v ts = wsum w ts := by
  induction ts with
  | nil => rfl
  | cons t ts ih => simp only [wsum]; rw [ih fun s hs => h s (List.mem_cons_of_mem _ hs), eval_congr_var (h t (by simp))]

theorem swcRow_sat {w : EV α → Bool} {k rhs i c : Nat} {l : Lit (EV α)} : Sat w (swcRow k rhs i c l) ↔
    (∀ j, 1 ≤ j → j ≤ rhs → (0 < i → w (.aux (k + (i - 1) * rhs + (j - 1))) = true → w (.aux (k + i * rhs + (j - 1))) = true) ∧
      (j ≤ c → l.eval w = true → w (.aux (k + i * rhs + (j - 1))) = true) ∧
      (0 < i → j + c ≤ rhs → w (.aux (k + (i - 1) * rhs + (j - 1))) = true → l.eval w = true → w (.aux (k + i * rhs + (j + c - 1))) = true)) ∧
    (0 < i → w (.aux (k + (i - 1) * rhs + (rhs + 1 - c - 1))) = true → l.eval w = false) := by
  have imp : ∀ a b : Bool, ((!a) = true ∨ b = true) ↔ (a = true → b = true) := by decide
  have imp2 : ∀ a b c : Bool, ((!a) = true ∨ (!b) = true ∨ c = true) ↔ (a = true → b = true → c = true) := by decide
  have imp3 : ∀ a b : Bool, ((!a) = true ∨ (!b) = true) ↔ (a = true → b = false) := by decide
  unfold swcRow
  rw [sat_append, sat_flatMap]
  refine and_congr ?_ ?_
  · constructor
    · intro h j h1 h2
      have := h (j - 1) (List.mem_range.2 (by omega))
      rw [sat_append, sat_append, show j - 1 + 1 = j by omega] at this
      obtain ⟨⟨ha, hb⟩, hc⟩ := this
      refine ⟨fun hi => ?_, fun hi => ?_, fun hi hj => ?_⟩
      · rw [if_pos hi] at ha
        simp only [sat_cons, List.mem_cons, List.not_mem_nil, or_false, exists_eq_or_imp, exists_eq_left, Lit.eval_neg, swcAux, al_eval, imp] at ha
        exact ha.1
      · rw [if_pos hi] at hb
        simp only [sat_cons, List.mem_cons, List.not_mem_nil, or_false, exists_eq_or_imp, exists_eq_left, Lit.eval_neg, swcAux, al_eval, imp] at hb
        exact hb.1
      · rw [if_pos ⟨hi, hj⟩] at hc
        simp only [sat_cons, List.mem_cons, List.not_mem_nil, or_false, exists_eq_or_imp, exists_eq_left, Lit.eval_neg, swcAux, al_eval, imp2] at hc
        exact hc.1
    · intro h j0 hj0
      rw [List.mem_range] at hj0
      obtain ⟨ha, hb, hc⟩ := h (j0 + 1) (by omega) (by omega)
      simp only [sat_append]
      refine ⟨⟨?_, ?_⟩, ?_⟩
      · split
        · simp only [sat_cons, sat_nil, List.mem_cons, List.not_mem_nil, or_false, exists_eq_or_imp, exists_eq_left, Lit.eval_neg, swcAux, al_eval, imp]
          exact ⟨ha ‹_›, trivial⟩
        · simp
      · split
        · simp only [sat_cons, sat_nil, List.mem_cons, List.not_mem_nil, or_false, exists_eq_or_imp, exists_eq_left, Lit.eval_neg, swcAux, al_eval, imp]
          exact ⟨hb ‹_›, trivial⟩
        · simp
      · split
        · rename_i hi
          simp only [sat_cons, sat_nil, List.mem_cons, List.not_mem_nil, or_false, exists_eq_or_imp, exists_eq_left, Lit.eval_neg, swcAux, al_eval, imp2]
          exact ⟨hc hi.1 hi.2, trivial⟩
        · simp
  · split
    · simp only [sat_cons, sat_nil, List.mem_cons, List.not_mem_nil, or_false, exists_eq_or_imp, exists_eq_left, Lit.eval_neg, swcAux, al_eval, imp3, and_true]
      exact ⟨fun h _ => h, fun h => h ‹_›⟩
    · simp [*]

theorem swcRows_sound {w : EV α → Bool} {k rhs : Nat} : ∀ (ts : WTerms α) (i s : Nat), (∀ t ∈ ts, 0 < t.1 ∧ t.1 ≤ rhs) → Sat w (swcRows k rhs i ts) →
    s ≤ rhs → (i = 0 → s = 0) → (0 < i → ∀ j, 1 ≤ j → j ≤ s → w (.aux (k + (i - 1) * rhs + (j - 1))) = true) → s + wsum w ts ≤ rhs
  | [], _, _, _, _, hs, _, _ => by simpa [wsum] using hs
  | t :: ts, i, s, hw, hsat, hs, h0, hi => by
    rw [swcRows, sat_append, swcRow_sat] at hsat
    obtain ⟨⟨hr, hl⟩, hrest⟩ := hsat
    have ht := hw t (by simp)
    have hs' : s + (if t.2.eval w then t.1 else 0) ≤ rhs := by
      split
      · rename_i he
        by_cases hi0 : 0 < i
        · by_contra hc
          have := hl hi0 (hi hi0 (rhs + 1 - t.1) (by omega) (by omega))
          rw [this] at he; simp at he
        · have := h0 (by omega); omega
      · omega
    have := swcRows_sound ts (i + 1) (s + (if t.2.eval w then t.1 else 0)) (fun x hx => hw x (List.mem_cons_of_mem _ hx)) hrest hs' (by omega) (by
      intro _ j h1 h2
      rw [Nat.add_sub_cancel]
      obtain ⟨ha, hb, _⟩ := hr j h1 (by omega)
      by_cases hj : j ≤ s
      · have hi0 : 0 < i := by by_contra hc; have := h0 (by omega); omega
        exact ha hi0 (hi hi0 j h1 hj)
      · have he : t.2.eval w = true := by by_contra hc; simp [hc] at h2; omega
        rw [if_pos he] at h2
        by_cases hj2 : j ≤ t.1
        · exact hb hj2 he
        · have hi0 : 0 < i := by by_contra hc; have := h0 (by omega); omega
          rw [if_pos he] at hs'
          have := (hr (j - t.1) (by omega) (by omega)).2.2 hi0 (by omega) (hi hi0 _ (by omega) (by omega)) he
          rw [show j - t.1 + t.1 - 1 = j - 1 by omega] at this
          exact this)
    simp only [wsum]; omega

theorem swcRows_complete {w : EV α → Bool} {k rhs : Nat} : ∀ (ts : WTerms α) (i s : Nat), (∀ t ∈ ts, 0 < t.1 ∧ t.1 ≤ rhs) →
    (i = 0 → s = 0) → (0 < i → ∀ j, 1 ≤ j → j ≤ rhs → w (.aux (k + (i - 1) * rhs + (j - 1))) = decide (j ≤ s)) →
    (∀ a, a < ts.length → ∀ j, 1 ≤ j → j ≤ rhs → w (.aux (k + (i + a) * rhs + (j - 1))) = decide (j ≤ s + wsum w (ts.take (a + 1)))) →
    s + wsum w ts ≤ rhs → Sat w (swcRows k rhs i ts)
  | [], _, _, _, _, _, _, _ => by simp [swcRows]
  | t :: ts, i, s, hw, h0, hi, ha, hs => by
    rw [swcRows, sat_append, swcRow_sat]
    have ht := hw t (by simp)
    have h1 : ∀ j, 1 ≤ j → j ≤ rhs → w (.aux (k + i * rhs + (j - 1))) = decide (j ≤ s + if t.2.eval w then t.1 else 0) := by
      intro j h1 h2
      have := ha 0 (by simp) j h1 h2
      simpa [wsum] using this
    simp only [wsum] at hs
    refine ⟨⟨fun j hj1 hj2 => ⟨fun hi0 hx => ?_, fun hj he => ?_, fun hi0 hj hx he => ?_⟩, fun hi0 hx => ?_⟩, ?_⟩
    · rw [hi hi0 j hj1 hj2] at hx
      rw [h1 j hj1 hj2]
      simp only [decide_eq_true_iff] at hx ⊢; omega
    · rw [h1 j hj1 hj2, if_pos he]; simp only [decide_eq_true_iff]; omega
    · rw [hi hi0 j hj1 hj2] at hx
      rw [h1 (j + t.1) (by omega) hj, if_pos he]; simp only [decide_eq_true_iff] at hx ⊢; omega
    · rw [hi hi0 _ (by omega) (by omega)] at hx
      simp only [decide_eq_true_iff] at hx
      by_contra hc
      rw [if_pos (by simpa using hc)] at hs
      omega
    · apply swcRows_complete ts (i + 1) (s + if t.2.eval w then t.1 else 0) (fun x hx => hw x (List.mem_cons_of_mem _ hx)) (by omega)
      · intro _ j hj1 hj2
        rw [Nat.add_sub_cancel]; exact h1 j hj1 hj2
      · intro a hlt j hj1 hj2
        have := ha (a + 1) (by simpa using hlt) j hj1 hj2
        rw [show i + 1 + a = i + (a + 1) by omega, this, List.take_succ_cons, wsum, Nat.add_assoc]
      · omega

theorem swcRow_vars {k rhs i c : Nat} {l : Lit (EV α)} {n : Nat} (h0 : 0 < c) (hc : c ≤ rhs) (hi : i < n) : ∀ cl ∈ swcRow k rhs i c l, ∀ x ∈ cl, x.var = l.var ∨ New k (k + n * rhs) x.var := by
  have hA : ∀ i' j, i' ≤ i → 1 ≤ j → j ≤ rhs → New k (k + n * rhs) (swcAux k rhs i' j : Lit (EV α)).var := by
    intro i' j h1 h2 h3
    rw [swcAux, new_al]
    have : (i' + 1) * rhs ≤ n * rhs := Nat.mul_le_mul_right _ (by omega)
    rw [Nat.add_mul] at this
    omega
  intro cl hcl x hx
  simp only [swcRow, List.mem_append, List.mem_flatMap, List.mem_range] at hcl
  rcases hcl with ⟨j0, hj, (hcl | hcl) | hcl⟩ | hcl
  all_goals split at hcl
  all_goals simp only [List.mem_cons, List.not_mem_nil, or_false] at hcl
  all_goals subst hcl
  all_goals simp only [List.mem_cons, List.not_mem_nil, or_false] at hx
  · rcases hx with rfl | rfl
    · exact .inr (hA _ _ (by omega) (by omega) (by omega))
    · exact .inr (hA _ _ (by omega) (by omega) (by omega))
  · rcases hx with rfl | rfl
    · exact .inl rfl
    · exact .inr (hA _ _ (by omega) (by omega) (by omega))
  · rcases hx with rfl | rfl | rfl
    · exact .inr (hA _ _ (by omega) (by omega) (by omega))
    · exact .inl rfl
    · exact .inr (hA _ _ (by omega) (by omega) (by omega))
  · rcases hx with rfl | rfl
    · exact .inr (hA _ _ (by omega) (by omega) (by omega))
    · exact .inl rfl

theorem swcRows_vars {k rhs n : Nat} : ∀ (ts : WTerms α) (i : Nat), (∀ t ∈ ts, 0 < t.1 ∧ t.1 ≤ rhs) → i + ts.length ≤ n →
    ∀ cl ∈ swcRows k rhs i ts, ∀ x ∈ cl, (∃ m ∈ ts.map (·.2), m.var = x.var) ∨ New k (k + n * rhs) x.var
  | [], _, _, _ => by simp [swcRows]
  | t :: ts, i, hw, hl => by
    intro cl hcl x hx
    rw [swcRows, List.mem_append] at hcl
    simp only [List.length_cons] at hl
    rcases hcl with hcl | hcl
    · rcases swcRow_vars (n := n) (hw t (by simp)).1 (hw t (by simp)).2 (show i < n by omega) cl hcl x hx with h | h
      · exact .inl ⟨t.2, by simp, h.symm⟩
      · exact .inr h
    · rcases swcRows_vars (n := n) ts (i + 1) (fun x hx => hw x (List.mem_cons_of_mem _ hx)) (by omega) cl hcl x hx with ⟨m, hm, e⟩ | h
      · exact .inl ⟨m, by rw [List.map_cons]; exact List.mem_cons_of_mem _ hm, e⟩
      · exact .inr h

theorem swc_exact {k rhs : Nat} {ts : WTerms α} (hw : ∀ t ∈ ts, 0 < t.1 ∧ t.1 ≤ rhs) (ho : ∀ t ∈ ts, Old k t.2) :
    Exact k (swc k rhs ts).2 (ts.map (·.2)) (swc k rhs ts).1 (fun v => wsum v ts ≤ rhs) where
  le := by simp [swc]
  vars := swcRows_vars ts 0 hw (by omega)
  sound := by
    intro w hs
    have := swcRows_sound ts 0 0 hw hs (by omega) (by simp) (by simp)
    omega
  complete := by
    intro v hv
    let w := setNew v k (k + ts.length * rhs) (fun x => decide (x % rhs + 1 ≤ wsum v (ts.take (x / rhs + 1))))
    have hoff : ∀ x, ¬New k (k + ts.length * rhs) x → w x = v x := fun x hx => setNew_off hx
    have hsum : ∀ us : WTerms α, (∀ t ∈ us, t ∈ ts) → wsum w us = wsum v us := fun us hus => wsum_congr fun t ht => hoff _ ((ho t (hus t ht)).not_new (Nat.le_refl _))
    refine ⟨w, hoff, swcRows_complete ts 0 0 hw (by simp) (by simp) ?_ (by rw [hsum _ fun _ h => h]; omega)⟩
    intro a ha j h1 h2
    have hlt : a * rhs + (j - 1) < ts.length * rhs := by
      have : (a + 1) * rhs ≤ ts.length * rhs := Nat.mul_le_mul_right _ (by omega)
      rw [Nat.add_mul] at this; omega
    rw [Nat.zero_add, Nat.add_assoc, show w (.aux (k + (a * rhs + (j - 1)))) = _ from setNew_on (by omega), hsum _ (fun t h => List.mem_of_mem_take h)]
    rw [Nat.mul_comm a rhs, Nat.mul_add_mod, Nat.mod_eq_of_lt (by omega), Nat.mul_add_div (by omega), Nat.div_eq_of_lt (by omega)]
    simp only [Nat.add_zero, Nat.zero_add, decide_eq_decide]; omega

end Verif.PB
