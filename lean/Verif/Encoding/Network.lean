import Verif.Encoding.ModTot
/-! # Cardinality networks -/
set_option linter.unusedSectionVars false
namespace Verif.Enc
open Verif
variable {α : Type}

/-! ### comparators -/

theorem comp3_up {w : EV α → Bool} {x1 x2 y : Lit (EV α)} {d : Dir} (hd : d.up = true) (h : Sat w (comp3 x1 x2 y d)) : x1.eval w = true ∨ x2.eval w = true → y.eval w = true := by
  simp only [comp3, hd, if_true, sat_append, sat_cons, List.mem_cons, List.not_mem_nil, or_false, exists_eq_or_imp, exists_eq_left, Lit.eval_neg, Bool.not_eq_true'] at h
  obtain ⟨⟨h1, h2, _⟩, _⟩ := h
  rintro (e | e)
  · rcases h1 with h | h
    · rw [e] at h; simp at h
    · exact h
  · rcases h2 with h | h
    · rw [e] at h; simp at h
    · exact h
theorem comp3_lo {w : EV α → Bool} {x1 x2 y : Lit (EV α)} {d : Dir} (hd : d.lo = true) (h : Sat w (comp3 x1 x2 y d)) : y.eval w = true → x1.eval w = true ∨ x2.eval w = true := by
  simp only [comp3, hd, if_true, sat_append, sat_cons, List.mem_cons, List.not_mem_nil, or_false, exists_eq_or_imp, exists_eq_left, Lit.eval_neg, Bool.not_eq_true'] at h
  obtain ⟨_, h1, _⟩ := h
  intro e
  rcases h1 with h | h
  · rw [e] at h; simp at h
  · exact h
theorem comp3_can {w : EV α → Bool} {x1 x2 y : Lit (EV α)} {d : Dir} (h : y.eval w = (x1.eval w || x2.eval w)) : Sat w (comp3 x1 x2 y d) := by
  unfold comp3
  rw [sat_append]
  constructor
  · split
    · simp only [sat_cons, List.mem_cons, List.not_mem_nil, or_false, exists_eq_or_imp, exists_eq_left, Lit.eval_neg, Bool.not_eq_true', sat_nil, h]
      cases x1.eval w <;> cases x2.eval w <;> simp
    · simp
  · split
    · simp only [sat_cons, List.mem_cons, List.not_mem_nil, or_false, exists_eq_or_imp, exists_eq_left, Lit.eval_neg, Bool.not_eq_true', sat_nil, h]
      cases x1.eval w <;> cases x2.eval w <;> simp
    · simp
theorem comp4_up {w : EV α → Bool} {x1 x2 y1 y2 : Lit (EV α)} {d : Dir} (hd : d.up = true) (h : Sat w (comp4 x1 x2 y1 y2 d)) :
    (x1.eval w = true ∨ x2.eval w = true → y1.eval w = true) ∧ (x1.eval w = true → x2.eval w = true → y2.eval w = true) := by
  simp only [comp4, hd, if_true, sat_append, sat_cons, List.mem_cons, List.not_mem_nil, or_false, exists_eq_or_imp, exists_eq_left, Lit.eval_neg, Bool.not_eq_true'] at h
  obtain ⟨⟨h1, h2, h3, _⟩, _⟩ := h
  constructor
  · rintro (e | e)
    · rcases h1 with h | h
      · rw [e] at h; simp at h
      · exact h
    · rcases h2 with h | h
      · rw [e] at h; simp at h
      · exact h
  · intro e1 e2
    rcases h3 with h | h | h
    · rw [e1] at h; simp at h
    · rw [e2] at h; simp at h
    · exact h
theorem comp4_lo {w : EV α → Bool} {x1 x2 y1 y2 : Lit (EV α)} {d : Dir} (hd : d.lo = true) (h : Sat w (comp4 x1 x2 y1 y2 d)) :
    (y1.eval w = true → x1.eval w = true ∨ x2.eval w = true) ∧ (y2.eval w = true → x1.eval w = true ∧ x2.eval w = true) := by
  simp only [comp4, hd, if_true, sat_append, sat_cons, List.mem_cons, List.not_mem_nil, or_false, exists_eq_or_imp, exists_eq_left, Lit.eval_neg, Bool.not_eq_true'] at h
  obtain ⟨_, h1, h2, h3, _⟩ := h
  constructor
  · intro e
    rcases h1 with h | h
    · rw [e] at h; simp at h
    · exact h
  · intro e
    constructor
    · rcases h2 with h | h
      · rw [e] at h; simp at h
      · exact h
    · rcases h3 with h | h
      · rw [e] at h; simp at h
      · exact h
theorem comp4_can {w : EV α → Bool} {x1 x2 y1 y2 : Lit (EV α)} {d : Dir} (h1 : y1.eval w = (x1.eval w || x2.eval w)) (h2 : y2.eval w = (x1.eval w && x2.eval w)) :
    Sat w (comp4 x1 x2 y1 y2 d) := by
  unfold comp4
  rw [sat_append]
  constructor
  · split
    · simp only [sat_cons, List.mem_cons, List.not_mem_nil, or_false, exists_eq_or_imp, exists_eq_left, Lit.eval_neg, Bool.not_eq_true', sat_nil, h1, h2]
      cases x1.eval w <;> cases x2.eval w <;> simp
    · simp
  · split
    · simp only [sat_cons, List.mem_cons, List.not_mem_nil, or_false, exists_eq_or_imp, exists_eq_left, Lit.eval_neg, Bool.not_eq_true', sat_nil, h1, h2]
      cases x1.eval w <;> cases x2.eval w <;> simp
    · simp
theorem comp3_vars {x1 x2 y : Lit (EV α)} {d : Dir} {c : Clause α} (hc : c ∈ comp3 x1 x2 y d) {l : Lit (EV α)} (hl : l ∈ c) : l.var = x1.var ∨ l.var = x2.var ∨ l.var = y.var := by
  unfold comp3 at hc
  rcases List.mem_append.1 hc with hc | hc <;> split at hc <;> simp at hc
  · rcases hc with rfl | rfl <;> simp at hl <;> rcases hl with rfl | rfl <;> simp
  · subst hc; simp at hl; rcases hl with rfl | rfl | rfl <;> simp
theorem comp4_vars {x1 x2 y1 y2 : Lit (EV α)} {d : Dir} {c : Clause α} (hc : c ∈ comp4 x1 x2 y1 y2 d) {l : Lit (EV α)} (hl : l ∈ c) :
    l.var = x1.var ∨ l.var = x2.var ∨ l.var = y1.var ∨ l.var = y2.var := by
  unfold comp4 at hc
  rcases List.mem_append.1 hc with hc | hc <;> split at hc <;> simp at hc
  · rcases hc with rfl | rfl | rfl <;> simp at hl
    · rcases hl with rfl | rfl <;> simp
    · rcases hl with rfl | rfl <;> simp
    · rcases hl with rfl | rfl | rfl <;> simp
  · rcases hc with rfl | rfl | rfl <;> simp at hl
    · rcases hl with rfl | rfl | rfl <;> simp
    · rcases hl with rfl | rfl <;> simp
    · rcases hl with rfl | rfl <;> simp

/-! ### lists -/

theorem odds_get {β : Type} : ∀ (l : List β) (i : Nat), (odds l)[i]? = l[2 * i]?
  | [], i => by simp [odds]
  | [x], i => by cases i <;> simp [odds]
  | x :: y :: r, 0 => by simp [odds]
  | x :: y :: r, i + 1 => by simp only [odds, List.getElem?_cons_succ, odds_get r i]; rw [show 2 * (i + 1) = 2 * i + 1 + 1 by omega]; simp
theorem evens_get {β : Type} (l : List β) (i : Nat) : (evens l)[i]? = l[2 * i + 1]? := by
  rw [evens, odds_get, List.getElem?_drop, Nat.add_comm]

theorem up_odds {w : EV α → Bool} {ls : List (Lit (EV α))} {p : Nat} (h : UP w ls p) : UP w (odds ls) ((p + 1) / 2) := fun i l hl hi => h (2 * i) l (by rw [← odds_get]; exact hl) (by omega)
theorem up_evens {w : EV α → Bool} {ls : List (Lit (EV α))} {p : Nat} (h : UP w ls p) : UP w (evens ls) (p / 2) := fun i l hl hi => h (2 * i + 1) l (by rw [← evens_get]; exact hl) (by omega)
theorem lo_odds {w : EV α → Bool} {ls : List (Lit (EV α))} {p : Nat} (h : LO w ls p) : LO w (odds ls) ((p + 1) / 2) := fun i l hl e => by
  have := h (2 * i) l (by rw [← odds_get]; exact hl) e; omega
theorem lo_evens {w : EV α → Bool} {ls : List (Lit (EV α))} {p : Nat} (h : LO w ls p) : LO w (evens ls) (p / 2) := fun i l hl e => by
  have := h (2 * i + 1) l (by rw [← evens_get]; exact hl) e; omega
theorem can_odds {w : EV α → Bool} {ls : List (Lit (EV α))} {p : Nat} (h : Can w ls p) : Can w (odds ls) ((p + 1) / 2) := can_of (up_odds h.up) (lo_odds h.lo)
theorem can_evens {w : EV α → Bool} {ls : List (Lit (EV α))} {p : Nat} (h : Can w ls p) : Can w (evens ls) (p / 2) := can_of (up_evens h.up) (lo_evens h.lo)
theorem up_take {w : EV α → Bool} {ls : List (Lit (EV α))} {p c : Nat} (h : UP w ls p) : UP w (ls.take c) (min p c) := fun i l hl hi => h i l (by rw [List.getElem?_take] at hl; split at hl <;> simp_all) (by omega)
theorem lo_take {w : EV α → Bool} {ls : List (Lit (EV α))} {p c : Nat} (h : LO w ls p) : LO w (ls.take c) (min p c) := fun i l hl e => by
  rw [List.getElem?_take] at hl
  split at hl
  · have := h i l hl e; omega
  · simp at hl
theorem can_take {w : EV α → Bool} {ls : List (Lit (EV α))} {p c : Nat} (h : Can w ls p) : Can w (ls.take c) (min p c) := can_of (up_take h.up) (lo_take h.lo)
/-- positions beyond the end do not matter -/
theorem up_len {w : EV α → Bool} {ls : List (Lit (EV α))} {p q : Nat} (h : UP w ls p) (hq : min q ls.length ≤ p) : UP w ls q := fun i l hl hi => by
  have : i < ls.length := by by_contra hc; rw [List.getElem?_eq_none (by omega)] at hl; simp at hl
  exact h i l hl (by omega)
theorem lo_len {w : EV α → Bool} {ls : List (Lit (EV α))} {p q : Nat} (h : LO w ls p) (hq : min p ls.length ≤ q) : LO w ls q := fun i l hl hi => by
  have : i < ls.length := by by_contra hc; rw [List.getElem?_eq_none (by omega)] at hl; simp at hl
  have := h i l hl hi
  omega
theorem can_len {w : EV α → Bool} {ls : List (Lit (EV α))} {p q : Nat} (h : Can w ls p) (hq : min p ls.length = min q ls.length) : Can w ls q :=
  can_of (up_len h.up (by omega)) (lo_len h.lo (by omega))
theorem mem_odds {β : Type} {l : List β} {x : β} (h : x ∈ odds l) : x ∈ l := by
  obtain ⟨i, hi⟩ := List.mem_iff_getElem?.1 h
  rw [odds_get] at hi
  exact List.mem_of_getElem? hi
theorem mem_evens {β : Type} {l : List β} {x : β} (h : x ∈ evens l) : x ∈ l := by
  obtain ⟨i, hi⟩ := List.mem_iff_getElem?.1 h
  rw [evens_get] at hi
  exact List.mem_of_getElem? hi
theorem up_cons {w : EV α → Bool} {a : Lit (EV α)} {ls : List (Lit (EV α))} {n : Nat} : UP w (a :: ls) n ↔ (0 < n → a.eval w = true) ∧ UP w ls (n - 1) := by
  constructor
  · intro h
    exact ⟨fun h0 => h 0 a rfl h0, fun i l hl hi => h (i + 1) l hl (by omega)⟩
  · rintro ⟨h1, h2⟩ i l hl hi
    cases i with
    | zero => cases hl; exact h1 hi
    | succ i => exact h2 i l hl (by omega)
theorem lo_cons {w : EV α → Bool} {a : Lit (EV α)} {ls : List (Lit (EV α))} {n : Nat} : LO w (a :: ls) n ↔ (a.eval w = true → 0 < n) ∧ LO w ls (n - 1) := by
  constructor
  · intro h
    refine ⟨fun e => h 0 a rfl e, fun i l hl e => ?_⟩
    have := h (i + 1) l hl e
    omega
  · rintro ⟨h1, h2⟩ i l hl e
    cases i with
    | zero => cases hl; exact h1 e
    | succ i => have := h2 i l hl e; omega
theorem up_nil {w : EV α → Bool} {n : Nat} : UP w ([] : List (Lit (EV α))) n := fun i l hl _ => by simp at hl
theorem lo_nil {w : EV α → Bool} {n : Nat} : LO w ([] : List (Lit (EV α))) n := fun i l hl _ => by simp at hl

/-! ### merging -/

/-- `cs` merges the unary numbers on `A` and `B` into `out` -/
structure MergeSpec (d : Dir) (len : Nat) (A B out : List (Lit (EV α))) (k k' : Nat) (cs : List (Clause α)) (ok : Nat → Nat → Prop) (val : Nat → Nat → Nat) : Prop where
  le : k ≤ k'
  len : out.length = len
  outs : ∀ l ∈ out, l ∈ A ++ B ∨ New k k' l.var
  vars : ∀ c ∈ cs, ∀ l ∈ c, (∃ m ∈ A ++ B, m.var = l.var) ∨ New k k' l.var
  soundU : d.up = true → ∀ w p q, ok p q → Sat w cs → UP w A p → UP w B q → UP w out (val p q)
  soundL : d.lo = true → ∀ w p q, ok p q → Sat w cs → LO w A p → LO w B q → LO w out (val p q)
  complete : ∀ v p q, ok p q → Can v A p → Can v B q → ∃ w, (∀ x, ¬New k k' x → w x = v x) ∧ Sat w cs ∧ Can w out (val p q)

theorem sat_of_off {v w : EV α → Bool} {cs : List (Clause α)} {k k' : Nat} {ls : List (Lit (EV α))} (hw : ∀ x, ¬New k k' x → w x = v x)
    (hv : ∀ c ∈ cs, ∀ l ∈ c, ¬New k k' l.var) (hs : Sat v cs) : Sat w cs := (sat_congr fun c hc l hl => hw _ (hv c hc l hl)).2 hs

theorem mergeLoop_ok (d : Dir) (c : Nat) : ∀ (os es : List (Lit (EV α))) (k len : Nat), len < c → os.length ≤ es.length + 1 → es.length ≤ os.length + 1 →
    (∀ l ∈ os ++ es, Old k l) →
    MergeSpec d (min (c - len) (os.length + es.length)) os es (mergeLoop d c k len os es).out k (mergeLoop d c k len os es).k (mergeLoop d c k len os es).cls
      (fun p q => p ≤ q + 1 ∧ q ≤ p + 1 ∧ p ≤ os.length ∧ q ≤ es.length) (fun p q => p + q)
  | [], [], k, len, hc, _, _, ho => by
    simp only [mergeLoop]
    exact ⟨Nat.le_refl _, by simp, by simp, by simp, fun _ _ _ _ _ _ _ _ => up_nil, fun _ _ _ _ _ _ _ _ => lo_nil,
      fun v p q _ _ _ => ⟨v, fun _ _ => rfl, by simp, can_of up_nil lo_nil⟩⟩
  | [], e :: es, k, len, hc, _, h2, ho => by
    obtain rfl : es = [] := by cases es with
      | nil => rfl
      | cons x y => simp at h2
    simp only [mergeLoop, List.getLast?_singleton, Option.toList_some]
    refine ⟨Nat.le_refl _, by simp; omega, by simp, by simp, ?_, ?_, ?_⟩
    · intro _ w p q hok _ _ hq
      simp at hok
      exact up_len hq (by omega)
    · intro _ w p q hok _ _ hq
      exact lo_len hq (by omega)
    · intro v p q hok _ hq
      simp at hok
      exact ⟨v, fun _ _ => rfl, by simp, can_len hq (by rw [show p + q = q by omega])⟩
  | o :: os, [], k, len, hc, h1, _, ho => by
    obtain rfl : os = [] := by cases os with
      | nil => rfl
      | cons x y => simp at h1
    simp only [mergeLoop, List.getLast?_singleton, Option.toList_some]
    refine ⟨Nat.le_refl _, by simp; omega, by simp, by simp, ?_, ?_, ?_⟩
    · intro _ w p q hok _ hp _
      simp at hok
      exact up_len hp (by omega)
    · intro _ w p q hok _ hp _
      exact lo_len hp (by omega)
    · intro v p q hok hp _
      simp at hok
      exact ⟨v, fun _ _ => rfl, by simp, can_len hp (by rw [show p + q = p by omega])⟩
  | o :: os, e :: es, k, len, hc, h1, h2, ho => by
    have oo : Old k o := ho o (by simp)
    have oe : Old k e := ho e (by simp)
    have hot : ∀ l ∈ os ++ es, Old k l := fun l hl => ho l (by simp only [List.mem_append] at hl; simp; rcases hl with h | h <;> simp [h])
    simp only [List.length_cons] at h1 h2
    rw [mergeLoop]
    by_cases h3 : len + 2 ≤ c
    · rw [if_pos h3]
      -- values of the two new variables
      have hset : ∀ v : EV α → Bool, ∃ w : EV α → Bool, (∀ x, ¬New k (k + 2) x → w x = v x) ∧ w (.aux k) = (o.eval v || e.eval v) ∧ w (.aux (k + 1)) = (o.eval v && e.eval v) := fun v =>
        ⟨setNew v k (k + 2) (fun i => if i = 0 then o.eval v || e.eval v else o.eval v && e.eval v), fun x hx => setNew_off hx,
          by have := setNew_on (v := v) (k := k) (k' := k + 2) (g := fun i => if i = 0 then o.eval v || e.eval v else o.eval v && e.eval v) (i := 0) (by omega); simpa using this,
          by rw [setNew_on (by omega)]; simp⟩
      have v4 : ∀ cl ∈ comp4 o e (al k) (al (k + 1)) d, ∀ l ∈ cl, l.var = o.var ∨ l.var = e.var ∨ New k (k + 2) l.var := fun cl hcl l hl => by
        rcases comp4_vars hcl hl with h | h | h | h
        · exact .inl h
        · exact .inr (.inl h)
        · exact .inr (.inr (by rw [h, new_al]; omega))
        · exact .inr (.inr (by rw [h, new_al]; omega))
      simp only
      by_cases h4 : len + 2 = c
      · rw [if_pos h4]
        refine ⟨by simp, by simp; omega, ?_, ?_, ?_, ?_, ?_⟩
        · intro l hl
          simp at hl
          right
          rcases hl with rfl | rfl <;> rw [new_al] <;> dsimp only <;> omega
        · intro cl hcl l hl
          rcases v4 cl hcl l hl with h | h | h
          · exact .inl ⟨o, by simp, h.symm⟩
          · exact .inl ⟨e, by simp, h.symm⟩
          · exact .inr h
        · intro hd w p q hok hs hp hq
          obtain ⟨c1, c2⟩ := comp4_up hd hs
          rw [up_cons] at hp hq
          simp only [List.length_cons] at hok
          rw [up_cons, up_cons]
          refine ⟨fun h => c1 ?_, fun h => c2 (hp.1 (by omega)) (hq.1 (by omega)), up_nil⟩
          by_cases h' : 0 < p
          · exact .inl (hp.1 h')
          · exact .inr (hq.1 (by omega))
        · intro hd w p q hok hs hp hq
          obtain ⟨c1, c2⟩ := comp4_lo hd hs
          rw [lo_cons] at hp hq
          rw [lo_cons, lo_cons]
          refine ⟨fun h => ?_, fun h => ?_, lo_nil⟩
          · rcases c1 h with h | h
            · have := hp.1 h; omega
            · have := hq.1 h; omega
          · have h1 := hp.1 (c2 h).1; have h2 := hq.1 (c2 h).2; omega
        · intro v p q hok hp hq
          obtain ⟨w, hw, e1, e2⟩ := hset v
          have eo : o.eval w = decide (0 < p) := by rw [eval_congr_var (hw _ (oo.not_new (Nat.le_refl _)))]; exact hp 0 o rfl
          have ee : e.eval w = decide (0 < q) := by rw [eval_congr_var (hw _ (oe.not_new (Nat.le_refl _)))]; exact hq 0 e rfl
          have eo' : o.eval v = decide (0 < p) := hp 0 o rfl
          have ee' : e.eval v = decide (0 < q) := hq 0 e rfl
          simp only [List.length_cons] at hok
          refine ⟨w, hw, comp4_can (by rw [al_eval, e1, eo, ee, eo', ee']) (by rw [al_eval, e2, eo, ee, eo', ee']), ?_⟩
          intro i l hl
          match i with
          | 0 => cases hl; rw [al_eval, e1, eo', ee']; by_cases h : 0 < p <;> by_cases h' : 0 < q <;> simp [h, h'] <;> omega
          | 1 => cases hl; rw [al_eval, e2, eo', ee']; by_cases h : 0 < p <;> by_cases h' : 0 < q <;> simp [h, h'] <;> omega
          | i + 2 => simp at hl
      · rw [if_neg h4]
        have IH := mergeLoop_ok d c os es (k + 2) (len + 2) (by omega) (by omega) (by omega) (fun l hl => (hot l hl).mono (by omega))
        generalize mergeLoop d c (k + 2) (len + 2) os es = r at *
        have hle := IH.le
        have hrl := IH.len
        refine ⟨by simp only; omega, by simp only [List.length_cons]; omega, ?_, ?_, ?_, ?_, ?_⟩
        · intro l hl
          simp only [List.mem_cons] at hl
          rcases hl with rfl | rfl | hl
          · right; rw [new_al]; dsimp only; omega
          · right; rw [new_al]; dsimp only; omega
          · rcases IH.outs l hl with h | h
            · left; simp only [List.mem_append, List.mem_cons] at h ⊢; rcases h with h | h <;> simp [h]
            · exact .inr (h.mono (by omega) (Nat.le_refl _))
        · intro cl hcl l hl
          rcases List.mem_append.1 hcl with hcl | hcl
          · rcases v4 cl hcl l hl with h | h | h
            · exact .inl ⟨o, by simp, h.symm⟩
            · exact .inl ⟨e, by simp, h.symm⟩
            · exact .inr (h.mono (Nat.le_refl _) hle)
          · rcases IH.vars cl hcl l hl with ⟨m, hm, e'⟩ | h
            · left; refine ⟨m, ?_, e'⟩; simp only [List.mem_append, List.mem_cons] at hm ⊢; rcases hm with h | h <;> simp [h]
            · exact .inr (h.mono (by omega) (Nat.le_refl _))
        · intro hd w p q hok hs hp hq
          rw [sat_append] at hs
          obtain ⟨c1, c2⟩ := comp4_up hd hs.1
          rw [up_cons] at hp hq
          simp only [List.length_cons] at hok
          have hrec := IH.soundU hd w (p - 1) (q - 1) (by omega) hs.2 hp.2 hq.2
          rw [up_cons, up_cons]
          refine ⟨fun h => c1 ?_, fun h => c2 (hp.1 (by omega)) (hq.1 (by omega)), hrec.mono (by omega)⟩
          by_cases h' : 0 < p
          · exact .inl (hp.1 h')
          · exact .inr (hq.1 (by omega))
        · intro hd w p q hok hs hp hq
          rw [sat_append] at hs
          obtain ⟨c1, c2⟩ := comp4_lo hd hs.1
          rw [lo_cons] at hp hq
          simp only [List.length_cons] at hok
          have hrec := IH.soundL hd w (p - 1) (q - 1) (by omega) hs.2 hp.2 hq.2
          rw [lo_cons, lo_cons]
          refine ⟨fun h => ?_, fun h => ?_, lo_len hrec (by omega)⟩
          · rcases c1 h with h | h
            · have := hp.1 h; omega
            · have := hq.1 h; omega
          · have h1 := hp.1 (c2 h).1; have h2 := hq.1 (c2 h).2; omega
        · intro v p q hok hp hq
          obtain ⟨w, hw, e1, e2⟩ := hset v
          have eo' : o.eval v = decide (0 < p) := hp 0 o rfl
          have ee' : e.eval v = decide (0 < q) := hq 0 e rfl
          simp only [List.length_cons] at hok
          have tl : ∀ {x : Lit (EV α)} {xs : List (Lit (EV α))} {n : Nat}, Can v (x :: xs) n → Can v xs (n - 1) := fun h i l hl => by
            rw [h (i + 1) l hl]; simp only [decide_eq_decide]; omega
          have cong : ∀ ls : List (Lit (EV α)), (∀ l ∈ ls, Old k l) → ∀ n, Can v ls n → Can w ls n := fun ls h n hc =>
            (can_congr fun l hl => hw _ ((h l hl).not_new (Nat.le_refl _))).2 hc
          obtain ⟨w2, hw2, hs2, hc2⟩ := IH.complete w (p - 1) (q - 1) (by omega) (cong os (fun l hl => hot l (by simp [hl])) _ (tl hp)) (cong es (fun l hl => hot l (by simp [hl])) _ (tl hq))
          have hold : ∀ l : Lit (EV α), Old (k + 2) l → w2 l.var = w l.var := fun l h => hw2 _ (h.not_new (Nat.le_refl _))
          have f1 : w2 (.aux k) = w (.aux k) := hold (al k) (old_al (by omega))
          have f2 : w2 (.aux (k + 1)) = w (.aux (k + 1)) := hold (al (k + 1)) (old_al (by omega))
          have eo : o.eval w2 = decide (0 < p) := by rw [eval_congr_var (hold o (oo.mono (by omega))), eval_congr_var (hw _ (oo.not_new (Nat.le_refl _)))]; exact eo'
          have ee : e.eval w2 = decide (0 < q) := by rw [eval_congr_var (hold e (oe.mono (by omega))), eval_congr_var (hw _ (oe.not_new (Nat.le_refl _)))]; exact ee'
          refine ⟨w2, fun x hx => ?_, ?_, ?_⟩
          · rw [hw2 x fun h => hx (h.mono (by omega) (Nat.le_refl _)), hw x fun h => hx (h.mono (Nat.le_refl _) hle)]
          · rw [sat_append]
            exact ⟨comp4_can (by rw [al_eval, f1, e1, eo, ee, eo', ee']) (by rw [al_eval, f2, e2, eo, ee, eo', ee']), hs2⟩
          · intro i l hl
            match i with
            | 0 => cases hl; rw [al_eval, f1, e1, eo', ee']; by_cases h : 0 < p <;> by_cases h' : 0 < q <;> simp [h, h'] <;> omega
            | 1 => cases hl; rw [al_eval, f2, e2, eo', ee']; by_cases h : 0 < p <;> by_cases h' : 0 < q <;> simp [h, h'] <;> omega
            | i + 2 =>
              rw [hc2 i l (by simpa using hl)]
              simp only [decide_eq_decide]; omega
    · rw [if_neg h3, if_pos (by omega)]
      refine ⟨by simp, by simp; omega, ?_, ?_, ?_, ?_, ?_⟩
      · intro l hl
        simp at hl
        right; subst hl; rw [new_al]; dsimp only; omega
      · intro cl hcl l hl
        rcases comp3_vars hcl hl with h | h | h
        · exact .inl ⟨o, by simp, h.symm⟩
        · exact .inl ⟨e, by simp, h.symm⟩
        · right; rw [h, new_al]; dsimp only; omega
      · intro hd w p q hok hs hp hq
        have c1 := comp3_up hd hs
        rw [up_cons] at hp hq
        rw [up_cons]
        refine ⟨fun h => c1 ?_, up_nil⟩
        by_cases h' : 0 < p
        · exact .inl (hp.1 h')
        · exact .inr (hq.1 (by omega))
      · intro hd w p q hok hs hp hq
        have c1 := comp3_lo hd hs
        rw [lo_cons] at hp hq
        rw [lo_cons]
        refine ⟨fun h => ?_, lo_nil⟩
        rcases c1 h with h | h
        · have := hp.1 h; omega
        · have := hq.1 h; omega
      · intro v p q hok hp hq
        have eo' : o.eval v = decide (0 < p) := hp 0 o rfl
        have ee' : e.eval v = decide (0 < q) := hq 0 e rfl
        let w := setNew v k (k + 1) (fun _ => o.eval v || e.eval v)
        have hw : ∀ x, ¬New k (k + 1) x → w x = v x := fun x hx => setNew_off hx
        have e1 : w (.aux k) = (o.eval v || e.eval v) := by
          have := setNew_on (v := v) (k := k) (k' := k + 1) (g := fun _ => o.eval v || e.eval v) (i := 0) (by omega); simpa using this
        refine ⟨w, hw, comp3_can ?_, ?_⟩
        · rw [al_eval, e1, eval_congr_var (hw _ (oo.not_new (Nat.le_refl _))), eval_congr_var (hw _ (oe.not_new (Nat.le_refl _)))]
        · intro i l hl
          match i with
          | 0 => cases hl; rw [al_eval, e1, eo', ee']; by_cases h : 0 < p <;> by_cases h' : 0 < q <;> simp [h, h'] <;> omega
          | i + 1 => simp at hl

theorem get_of_up {w : EV α → Bool} {ls : List (Lit (EV α))} {p : Nat} (h : UP w ls p) {i : Nat} (hi : i < p) (hl : i < ls.length) : TL w ls[i]? :=
  ⟨ls[i], List.getElem?_eq_getElem hl, h i _ (List.getElem?_eq_getElem hl) hi⟩

theorem directMerger_ok {m k : Nat} {A B : List (Lit (EV α))} (ho : ∀ l ∈ A ++ B, Old k l) :
    MergeSpec .io m A B (directMerger m k A B).out k (directMerger m k A B).k (directMerger m k A B).cls (fun p q => p ≤ A.length ∧ q ≤ B.length) (fun p q => p + q) := by
  have hneg : ∀ (ls : List (Lit (EV α))) (i : Nat) (l : Lit (EV α)), some l = oneg ls[i]? → ∃ m ∈ ls, m.var = l.var := fun ls i l h => by
    obtain ⟨m, hm, e⟩ := oneg_var h.symm
    exact ⟨m, List.mem_of_getElem? hm, e⟩
  have hout : ∀ (i : Nat) (l : Lit (EV α)), some l = (auxs k m)[i]? → New k (k + m) l.var := fun i l h => by
    obtain ⟨h1, rfl⟩ := auxs_get.1 h.symm
    rw [new_al]; omega
  refine ⟨by simp [directMerger], by simp [directMerger], ?_, ?_, ?_, by simp [Dir.lo], ?_⟩
  · intro l hl
    obtain ⟨i, hi, rfl⟩ := mem_auxs.1 hl
    right; rw [new_al]; simp only [directMerger]; omega
  · intro c hc l hl
    simp only [directMerger, List.mem_append, List.mem_flatMap, List.mem_range] at hc
    rcases hc with (⟨i, _, hc⟩ | ⟨i, _, hc⟩) | ⟨i, _, j, _, hc⟩
    · have := ocl_mem hc l hl
      simp only [List.mem_cons, List.not_mem_nil, or_false] at this
      rcases this with h | h
      · obtain ⟨m, hm, e⟩ := hneg _ _ _ h; exact .inl ⟨m, by simp [hm], e⟩
      · exact .inr (hout _ _ h)
    · have := ocl_mem hc l hl
      simp only [List.mem_cons, List.not_mem_nil, or_false] at this
      rcases this with h | h
      · obtain ⟨m, hm, e⟩ := hneg _ _ _ h; exact .inl ⟨m, by simp [hm], e⟩
      · exact .inr (hout _ _ h)
    · split at hc
      · have := ocl_mem hc l hl
        simp only [List.mem_cons, List.not_mem_nil, or_false] at this
        rcases this with h | h | h
        · obtain ⟨m, hm, e⟩ := hneg _ _ _ h; exact .inl ⟨m, by simp [hm], e⟩
        · obtain ⟨m, hm, e⟩ := hneg _ _ _ h; exact .inl ⟨m, by simp [hm], e⟩
        · exact .inr (hout _ _ h)
      · simp at hc
  · intro _ w p q hok hs hp hq t o ht hlt
    simp only [directMerger, sat_append, sat_flatMap, List.mem_range] at hs
    obtain ⟨⟨s1, s2⟩, s3⟩ := hs
    have htm : t < m := (auxs_get.1 ht).1
    by_cases h1 : t < p
    · have := s1 t (by omega)
      refine ocl_elim this _ fun o' ho' => ?_
      simp only [List.mem_cons, List.not_mem_nil, or_false] at ho'
      rcases ho' with rfl | rfl
      · exact .inl (get_of_up hp h1 (by omega)).neg
      · exact .inr ⟨o, ht, id⟩
    · by_cases h2 : t < q
      · have := s2 t (by omega)
        refine ocl_elim this _ fun o' ho' => ?_
        simp only [List.mem_cons, List.not_mem_nil, or_false] at ho'
        rcases ho' with rfl | rfl
        · exact .inl (get_of_up hq h2 (by omega)).neg
        · exact .inr ⟨o, ht, id⟩
      · have := s3 (p - 1) (by omega) (t - p) (by omega)
        rw [if_pos (by omega), show p - 1 + (t - p) + 1 = t by omega] at this
        refine ocl_elim this _ fun o' ho' => ?_
        simp only [List.mem_cons, List.not_mem_nil, or_false] at ho'
        rcases ho' with rfl | rfl | rfl
        · exact .inl (get_of_up hp (by omega) (by omega)).neg
        · exact .inl (get_of_up hq (by omega) (by omega)).neg
        · exact .inr ⟨o, ht, id⟩
  · intro v p q hok hp hq
    let w := setNew v k (k + m) (fun i => decide (i < p + q))
    have hw : ∀ x, ¬New k (k + m) x → w x = v x := fun x hx => setNew_off hx
    have hO : Can w (auxs k m) (p + q) := can_auxs fun i hi => setNew_on (by omega)
    have hA : Can w A p := (can_congr fun l hl => hw _ ((ho l (by simp [hl])).not_new (Nat.le_refl _))).2 hp
    have hB : Can w B q := (can_congr fun l hl => hw _ ((ho l (by simp [hl])).not_new (Nat.le_refl _))).2 hq
    refine ⟨w, hw, ?_, hO⟩
    have nA : ∀ i : Nat, ¬i < p → ∀ l, oneg A[i]? = some l → l.eval w = true := fun i h => oneg_true fun m hm => by rw [hA _ _ hm]; simpa using h
    have nB : ∀ i : Nat, ¬i < q → ∀ l, oneg B[i]? = some l → l.eval w = true := fun i h => oneg_true fun m hm => by rw [hB _ _ hm]; simpa using h
    have nO : ∀ i : Nat, i < p + q → ∀ l, (auxs k m)[i]? = some l → l.eval w = true := fun i h l hl => by rw [hO _ _ hl]; simpa using h
    simp only [directMerger, sat_append, sat_flatMap, List.mem_range]
    refine ⟨⟨?_, ?_⟩, ?_⟩
    · intro i _
      by_cases h : i < p
      · exact sat_ocl_of ⟨_, by simp, nO i (by omega)⟩
      · exact sat_ocl_of ⟨_, by simp, nA i h⟩
    · intro i _
      by_cases h : i < q
      · exact sat_ocl_of ⟨_, by simp, nO i (by omega)⟩
      · exact sat_ocl_of ⟨_, by simp, nB i h⟩
    · intro i _ j _
      split
      · by_cases h : i < p
        · by_cases h' : j < q
          · exact sat_ocl_of ⟨_, by simp, nO (i + j + 1) (by omega)⟩
          · exact sat_ocl_of ⟨oneg B[j]?, by simp, nB j h'⟩
        · exact sat_ocl_of ⟨_, by simp, nA i h⟩
      · simp

theorem MergeSpec.weaken {d : Dir} {len len' k k' : Nat} {A B out : List (Lit (EV α))} {cs : List (Clause α)} {ok ok' : Nat → Nat → Prop} {val : Nat → Nat → Nat}
    (h : MergeSpec d len A B out k k' cs ok val) (hl : len = len') (hok : ∀ p q, ok' p q → ok p q) : MergeSpec d len' A B out k k' cs ok' val :=
  ⟨h.le, by rw [h.len, hl], h.outs, h.vars, fun hd w p q ho => h.soundU hd w p q (hok p q ho), fun hd w p q ho => h.soundL hd w p q (hok p q ho),
    fun v p q ho => h.complete v p q (hok p q ho)⟩

/-- the numbers on the odd and the even positions, cut to the lengths of the merged lists -/
theorem mergeArith {c x y p q nO nE : Nat} (hx : x ≤ c) (hy : y ≤ c) (hc : c ≤ x + y) (hc2 : 2 ≤ c) (hp : p ≤ x) (hq : q ≤ y)
    (hO : nO + 1 = min (c / 2 + 1) ((x + 1) / 2 + (y + 1) / 2)) (hE : nE = min (c / 2) (x / 2 + y / 2)) :
    let P := min ((p + 1) / 2 + (q + 1) / 2 - 1) nO
    let Q := min (p / 2 + q / 2) nE
    P ≤ Q + 1 ∧ Q ≤ P + 1 ∧ P ≤ nO ∧ Q ≤ nE ∧ min (p + q - 1) (c - 1) ≤ P + Q ∧ (0 < p + q → P + Q ≤ p + q - 1) ∧ (p + q = 0 → P + Q = 0) := by
  intro P Q
  have h1 : P = min ((p + 1) / 2 + (q + 1) / 2 - 1) nO := rfl
  have h2 : Q = min (p / 2 + q / 2) nE := rfl
  clear_value P Q
  refine ⟨?_, ?_, ?_, ?_, ?_, ?_, ?_⟩ <;> omega
theorem mergeLen {c x y nO nE : Nat} (hx : x ≤ c) (hy : y ≤ c) (hc : c ≤ x + y) (hc2 : 2 ≤ c)
    (hO : nO + 1 = min (c / 2 + 1) ((x + 1) / 2 + (y + 1) / 2)) (hE : nE = min (c / 2) (x / 2 + y / 2)) :
    nO ≤ nE + 1 ∧ nE ≤ nO + 1 ∧ min (c - 1) (nO + nE) + 1 = c := by omega

theorem merge_ok (d : Dir) : ∀ (N m k : Nat) (A B : List (Lit (EV α))), A.length + B.length ≤ N → 0 < m → A.length ≤ m → B.length ≤ m → (∀ l ∈ A ++ B, Old k l) →
    MergeSpec d (min m (A.length + B.length)) A B (merge d m k A B).out k (merge d m k A B).k (merge d m k A B).cls (fun p q => p ≤ A.length ∧ q ≤ B.length) (fun p q => p + q) := by
  intro N
  induction N with
  | zero =>
    intro m k A B hN hm hA hB ho
    obtain rfl : A = [] := List.eq_nil_of_length_eq_zero (by omega)
    obtain rfl : B = [] := List.eq_nil_of_length_eq_zero (by simpa using hN)
    rw [merge.eq_def, if_neg (by omega)]
    exact ⟨Nat.le_refl _, by simp, by simp, by simp, fun _ _ _ _ _ _ _ _ => up_nil, fun _ _ _ _ _ _ _ _ => lo_nil,
      fun v p q _ _ _ => ⟨v, fun _ _ => rfl, by simp, can_of up_nil lo_nil⟩⟩
  | succ N ih =>
    intro m k A B hN hm hA hB ho
    rw [merge.eq_def, if_neg (by omega)]
    match A, B, hN, hA, hB, ho with
    | [], B, hN, hA, hB, ho =>
      refine ⟨Nat.le_refl _, by simp; omega, fun l hl => .inl (by simpa using hl), by simp, ?_, ?_, ?_⟩
      · intro _ w p q hok _ _ hq
        have : p = 0 := by simpa using hok.1
        rw [this, Nat.zero_add]; exact hq
      · intro _ w p q hok _ _ hq
        have : p = 0 := by simpa using hok.1
        rw [this, Nat.zero_add]; exact hq
      · intro v p q hok _ hq
        have : p = 0 := by simpa using hok.1
        exact ⟨v, fun _ _ => rfl, by simp, by rw [this, Nat.zero_add]; exact hq⟩
    | a :: A', [], hN, hA, hB, ho =>
      refine ⟨Nat.le_refl _, by simp only [List.length_nil]; omega, fun l hl => .inl (by simpa using hl), by simp, ?_, ?_, ?_⟩
      · intro _ w p q hok _ hp _
        have : q = 0 := by simpa using hok.2
        rw [this]; exact hp
      · intro _ w p q hok _ hp _
        have : q = 0 := by simpa using hok.2
        rw [this]; exact hp
      · intro v p q hok hp _
        have : q = 0 := by simpa using hok.2
        exact ⟨v, fun _ _ => rfl, by simp, by rw [this]; exact hp⟩
    | a :: A', b :: B', hN, hA, hB, ho =>
      simp only
      generalize hAe : a :: A' = A at *
      generalize hBe : b :: B' = B at *
      have hAl : 0 < A.length := by rw [← hAe]; simp
      have hBl : 0 < B.length := by rw [← hBe]; simp
      have hAa : A[0]? = some a := by rw [← hAe]; rfl
      have hBb : B[0]? = some b := by rw [← hBe]; rfl
      have oa : Old k a := ho a (by rw [← hAe]; simp)
      have ob : Old k b := ho b (by rw [← hBe]; simp)
      generalize hc : min m (A.length + B.length) = c
      by_cases hd : d = .io
      · subst hd
        rw [if_pos rfl]
        exact directMerger_ok ho
      · rw [if_neg hd]
        by_cases h1 : c = 1
        · rw [if_pos h1]
          have hA1 : A.length = 1 := by omega
          have hB1 : B.length = 1 := by omega
          refine ⟨by simp, by simp [h1], ?_, ?_, ?_, ?_, ?_⟩
          · intro l hl
            simp at hl
            right; subst hl; rw [new_al]; dsimp only; omega
          · intro cl hcl l hl
            rcases comp3_vars hcl hl with h | h | h
            · exact .inl ⟨a, by rw [← hAe]; simp, h.symm⟩
            · exact .inl ⟨b, by rw [← hBe]; simp, h.symm⟩
            · right; rw [h, new_al]; dsimp only; omega
          · intro hd w p q hok hs hp hq
            have c1 := comp3_up hd hs
            rw [up_cons]
            refine ⟨fun h => c1 ?_, up_nil⟩
            by_cases h' : 0 < p
            · exact .inl (hp 0 a hAa h')
            · exact .inr (hq 0 b hBb (by omega))
          · intro hd w p q hok hs hp hq
            have c1 := comp3_lo hd hs
            rw [lo_cons]
            refine ⟨fun h => ?_, lo_nil⟩
            rcases c1 h with h | h
            · have := hp 0 a hAa h; omega
            · have := hq 0 b hBb h; omega
          · intro v p q hok hp hq
            have eo' : a.eval v = decide (0 < p) := hp 0 a hAa
            have ee' : b.eval v = decide (0 < q) := hq 0 b hBb
            let w := setNew v k (k + 1) (fun _ => a.eval v || b.eval v)
            have hw : ∀ x, ¬New k (k + 1) x → w x = v x := fun x hx => setNew_off hx
            have e1 : w (.aux k) = (a.eval v || b.eval v) := by
              have := setNew_on (v := v) (k := k) (k' := k + 1) (g := fun _ => a.eval v || b.eval v) (i := 0) (by omega); simpa using this
            refine ⟨w, hw, comp3_can ?_, ?_⟩
            · rw [al_eval, e1, eval_congr_var (hw _ (oa.not_new (Nat.le_refl _))), eval_congr_var (hw _ (ob.not_new (Nat.le_refl _)))]
            · intro i l hl
              match i with
              | 0 => cases hl; rw [al_eval, e1, eo', ee']; by_cases h : 0 < p <;> by_cases h' : 0 < q <;> simp [h, h'] <;> omega
              | i + 1 => simp at hl
        · rw [if_neg h1]
          have hA2 : (A.take c).length = min c A.length := by simp
          have hB2 : (B.take c).length = min c B.length := by simp
          by_cases h2 : (A.take c).length = 1 ∧ (B.take c).length = 1
          · rw [dif_pos h2]
            rw [hA2, hB2] at h2
            have hc2 : c = 2 := by omega
            refine ⟨by simp, by simp [hc2], ?_, ?_, ?_, ?_, ?_⟩
            · intro l hl
              simp at hl
              right
              rcases hl with rfl | rfl <;> rw [new_al] <;> dsimp only <;> omega
            · intro cl hcl l hl
              rcases comp4_vars hcl hl with h | h | h | h
              · exact .inl ⟨a, by rw [← hAe]; simp, h.symm⟩
              · exact .inl ⟨b, by rw [← hBe]; simp, h.symm⟩
              · right; rw [h, new_al]; dsimp only; omega
              · right; rw [h, new_al]; dsimp only; omega
            · intro hd w p q hok hs hp hq
              obtain ⟨c1, c2⟩ := comp4_up hd hs
              rw [up_cons, up_cons]
              refine ⟨fun h => c1 ?_, fun h => c2 (hp 0 a hAa (by omega)) (hq 0 b hBb (by omega)), up_nil⟩
              by_cases h' : 0 < p
              · exact .inl (hp 0 a hAa h')
              · exact .inr (hq 0 b hBb (by omega))
            · intro hd w p q hok hs hp hq
              obtain ⟨c1, c2⟩ := comp4_lo hd hs
              rw [lo_cons, lo_cons]
              refine ⟨fun h => ?_, fun h => ?_, lo_nil⟩
              · rcases c1 h with h | h
                · have := hp 0 a hAa h; omega
                · have := hq 0 b hBb h; omega
              · have h1 := hp 0 a hAa (c2 h).1; have h2 := hq 0 b hBb (c2 h).2; omega
            · intro v p q hok hp hq
              have eo' : a.eval v = decide (0 < p) := hp 0 a hAa
              have ee' : b.eval v = decide (0 < q) := hq 0 b hBb
              let w := setNew v k (k + 2) (fun i => if i = 0 then a.eval v || b.eval v else a.eval v && b.eval v)
              have hw : ∀ x, ¬New k (k + 2) x → w x = v x := fun x hx => setNew_off hx
              have e1 : w (.aux k) = (a.eval v || b.eval v) := by
                have := setNew_on (v := v) (k := k) (k' := k + 2) (g := fun i => if i = 0 then a.eval v || b.eval v else a.eval v && b.eval v) (i := 0) (by omega); simpa using this
              have e2 : w (.aux (k + 1)) = (a.eval v && b.eval v) := by
                have := setNew_on (v := v) (k := k) (k' := k + 2) (g := fun i => if i = 0 then a.eval v || b.eval v else a.eval v && b.eval v) (i := 1) (by omega); simpa using this
              have ea := eval_congr_var (hw _ (oa.not_new (Nat.le_refl _)))
              have eb := eval_congr_var (hw _ (ob.not_new (Nat.le_refl _)))
              refine ⟨w, hw, comp4_can ?_ ?_, ?_⟩
              · rw [al_eval, e1, ea, eb]
              · rw [al_eval, e2, ea, eb]
              · intro i l hl
                match i with
                | 0 => cases hl; rw [al_eval, e1, eo', ee']; by_cases h : 0 < p <;> by_cases h' : 0 < q <;> simp [h, h'] <;> omega
                | 1 => cases hl; rw [al_eval, e2, eo', ee']; by_cases h : 0 < p <;> by_cases h' : 0 < q <;> simp [h, h'] <;> omega
                | i + 2 => simp at hl
          · rw [dif_neg h2]
            rw [hA2, hB2] at h2
            have memA : ∀ l ∈ A.take c, l ∈ A := fun l hl => List.mem_of_mem_take hl
            have memB : ∀ l ∈ B.take c, l ∈ B := fun l hl => List.mem_of_mem_take hl
            have lOA := odds_length (A.take c)
            have lOB := odds_length (B.take c)
            have lEA := evens_length (A.take c)
            have lEB := evens_length (B.take c)
            rw [hA2] at lOA lEA
            rw [hB2] at lOB lEB
            have IO := ih (c / 2 + 1) k (odds (A.take c)) (odds (B.take c)) (by omega) (by omega) (by omega) (by omega)
              (fun l hl => by
                rcases List.mem_append.1 hl with hl | hl
                · exact ho l (by simp [memA l (mem_odds hl)])
                · exact ho l (by simp [memB l (mem_odds hl)]))
            generalize merge d (c / 2 + 1) k (odds (A.take c)) (odds (B.take c)) = O at *
            have hO := IO.le
            have IE := ih (c / 2) O.k (evens (A.take c)) (evens (B.take c)) (by omega) (by omega) (by omega) (by omega)
              (fun l hl => by
                rcases List.mem_append.1 hl with hl | hl
                · exact (ho l (by simp [memA l (mem_evens hl)])).mono hO
                · exact (ho l (by simp [memB l (mem_evens hl)])).mono hO)
            generalize merge d (c / 2) O.k (evens (A.take c)) (evens (B.take c)) = E at *
            have hE := IE.le
            have lO := IO.len
            have lE := IE.len
            rw [lOA, lOB] at lO
            rw [lEA, lEB] at lE
            obtain ⟨o, os, hOe⟩ : ∃ o os, O.out = o :: os := by
              cases h : O.out with
              | nil => rw [h] at lO; simp only [List.length_nil] at lO; omega
              | cons o os => exact ⟨o, os, rfl⟩
            rw [hOe] at lO
            simp only [List.length_cons] at lO
            have oldO : ∀ l ∈ o :: os, Old O.k l := fun l hl => by
              rcases IO.outs l (by rw [hOe]; exact hl) with h | ⟨n, e, h1, h2⟩
              · refine Old.mono ?_ hO
                rcases List.mem_append.1 h with h | h
                · exact ho l (by simp [memA l (mem_odds h)])
                · exact ho l (by simp [memB l (mem_odds h)])
              · intro n' e'; rw [e] at e'; cases e'; exact h2
            have oldE : ∀ l ∈ E.out, Old E.k l := fun l hl => by
              rcases IE.outs l hl with h | ⟨n, e, h1, h2⟩
              · refine Old.mono ?_ (Nat.le_trans hO hE)
                rcases List.mem_append.1 h with h | h
                · exact ho l (by simp [memA l (mem_evens h)])
                · exact ho l (by simp [memB l (mem_evens h)])
              · intro n' e'; rw [e] at e'; cases e'; exact h2
            have hx : min c A.length ≤ c := Nat.min_le_left _ _
            have hy : min c B.length ≤ c := Nat.min_le_left _ _
            have hxA : min c A.length ≤ A.length := Nat.min_le_right _ _
            have hyB : min c B.length ≤ B.length := Nat.min_le_right _ _
            have hcle : c ≤ min c A.length + min c B.length := by omega
            have hc2 : 2 ≤ c := by omega
            have hpx : ∀ p, p ≤ A.length → min p c ≤ min c A.length := fun p h => by omega
            have hqy : ∀ q, q ≤ B.length → min q c ≤ min c B.length := fun q h => by omega
            generalize min c A.length = x at *
            generalize min c B.length = y at *
            obtain ⟨l1, l2, l3⟩ := mergeLen hx hy hcle hc2 lO lE
            have IL := mergeLoop_ok d c os E.out E.k 1 (by omega) l1 l2
              (fun l hl => by
                rcases List.mem_append.1 hl with hl | hl
                · exact (oldO l (by simp [hl])).mono hE
                · exact oldE l hl)
            rw [hOe]
            simp only [List.drop_succ_cons, List.drop_zero, List.take_succ_cons, List.take_zero, List.cons_append, List.nil_append]
            generalize mergeLoop d c E.k 1 os E.out = R at *
            have hR := IL.le
            have lR := IL.len
            -- variables
            have vO : ∀ l ∈ o :: os, l ∈ A ++ B ∨ New k R.k l.var := fun l hl => by
              rcases IO.outs l (by rw [hOe]; exact hl) with h | h
              · left
                rcases List.mem_append.1 h with h | h
                · simp [memA l (mem_odds h)]
                · simp [memB l (mem_odds h)]
              · exact .inr (h.mono (Nat.le_refl _) (by omega))
            have vE : ∀ l ∈ E.out, l ∈ A ++ B ∨ New k R.k l.var := fun l hl => by
              rcases IE.outs l hl with h | h
              · left
                rcases List.mem_append.1 h with h | h
                · simp [memA l (mem_evens h)]
                · simp [memB l (mem_evens h)]
              · exact .inr (h.mono hO hR)
            -- the numbers on the odd and even outputs
            refine ⟨by omega, by simp only [List.length_cons, lR]; exact l3, ?_, ?_, ?_, ?_, ?_⟩
            · intro l hl
              rcases List.mem_cons.1 hl with rfl | hl
              · exact vO _ (by simp)
              · rcases IL.outs l hl with h | h
                · rcases List.mem_append.1 h with h | h
                  · exact vO l (by simp [h])
                  · exact vE l h
                · exact .inr (h.mono (by omega) (Nat.le_refl _))
            · intro cl hcl l hl
              simp only [List.mem_append] at hcl
              rcases hcl with (hcl | hcl) | hcl
              · rcases IO.vars cl hcl l hl with ⟨x, hx, e⟩ | h
                · left
                  refine ⟨x, ?_, e⟩
                  rcases List.mem_append.1 hx with h | h
                  · simp [memA x (mem_odds h)]
                  · simp [memB x (mem_odds h)]
                · exact .inr (h.mono (Nat.le_refl _) (by omega))
              · rcases IE.vars cl hcl l hl with ⟨x, hx, e⟩ | h
                · left
                  refine ⟨x, ?_, e⟩
                  rcases List.mem_append.1 hx with h | h
                  · simp [memA x (mem_evens h)]
                  · simp [memB x (mem_evens h)]
                · exact .inr (h.mono hO hR)
              · rcases IL.vars cl hcl l hl with ⟨x, hx, e⟩ | h
                · rw [← e]
                  have : x ∈ A ++ B ∨ New k R.k x.var := by
                    rcases List.mem_append.1 hx with h | h
                    · exact vO x (by simp [h])
                    · exact vE x h
                  rcases this with h | h
                  · exact .inl ⟨x, h, rfl⟩
                  · exact .inr h
                · exact .inr (h.mono (by omega) (Nat.le_refl _))
            · intro hd w p q hok hs hp hq
              simp only [sat_append] at hs
              have hp2 := hpx p hok.1
              have hq2 := hqy q hok.2
              have hp' := up_take (c := c) hp
              have hq' := up_take (c := c) hq
              have hsum : min (p + q) c = min (min p c + min q c) c := by omega
              generalize min p c = p2 at *
              generalize min q c = q2 at *
              have uO := IO.soundU hd w _ _ ⟨by rw [lOA]; omega, by rw [lOB]; omega⟩ hs.1.1 (up_odds hp') (up_odds hq')
              have uE := IE.soundU hd w _ _ ⟨by rw [lEA]; omega, by rw [lEB]; omega⟩ hs.1.2 (up_evens hp') (up_evens hq')
              rw [hOe, up_cons] at uO
              obtain ⟨f1, f2, f3, f4, f5, f6, f7⟩ := mergeArith hx hy hcle hc2 hp2 hq2 lO lE
              have uL := IL.soundU hd w (min ((p2 + 1) / 2 + (q2 + 1) / 2 - 1) os.length) (min (p2 / 2 + q2 / 2) E.out.length)
                ⟨f1, f2, f3, f4⟩ hs.2 (uO.2.mono (Nat.min_le_left _ _)) (uE.mono (Nat.min_le_left _ _))
              rw [up_cons]
              refine ⟨fun h => uO.1 (by omega), up_len uL (Nat.le_trans ?_ f5)⟩
              rw [lR]
              have : min (c - 1) (os.length + E.out.length) ≤ c - 1 := Nat.min_le_left _ _
              generalize min (c - 1) (os.length + E.out.length) = z at *
              omega
            · intro hd w p q hok hs hp hq
              simp only [sat_append] at hs
              have hp2 := hpx p hok.1
              have hq2 := hqy q hok.2
              have hp' := lo_take (c := c) hp
              have hq' := lo_take (c := c) hq
              have hsum : min p c + min q c ≤ p + q := by omega
              have hzero : p + q = 0 ↔ min p c + min q c = 0 := by omega
              generalize min p c = p2 at *
              generalize min q c = q2 at *
              have uO := IO.soundL hd w _ _ ⟨by rw [lOA]; omega, by rw [lOB]; omega⟩ hs.1.1 (lo_odds hp') (lo_odds hq')
              have uE := IE.soundL hd w _ _ ⟨by rw [lEA]; omega, by rw [lEB]; omega⟩ hs.1.2 (lo_evens hp') (lo_evens hq')
              rw [hOe, lo_cons] at uO
              obtain ⟨f1, f2, f3, f4, f5, f6, f7⟩ := mergeArith hx hy hcle hc2 hp2 hq2 lO lE
              have uL := IL.soundL hd w (min ((p2 + 1) / 2 + (q2 + 1) / 2 - 1) os.length) (min (p2 / 2 + q2 / 2) E.out.length)
                ⟨f1, f2, f3, f4⟩ hs.2 (lo_len uO.2 (Nat.le_refl _)) (lo_len uE (Nat.le_refl _))
              rw [lo_cons]
              refine ⟨fun h => by have := uO.1 h; omega, lo_len uL (Nat.le_trans (Nat.min_le_left _ _) ?_)⟩
              by_cases h0 : p2 + q2 = 0
              · have := f7 h0; omega
              · have := f6 (by omega); omega
            · intro v p q hok hp hq
              have hp2 := hpx p hok.1
              have hq2 := hqy q hok.2
              have hp' := can_take (c := c) hp
              have hq' := can_take (c := c) hq
              have hsum : min (p + q) c = min (min p c + min q c) c := by omega
              have hsum' : min p c + min q c ≤ p + q := by omega
              have hzero : p + q = 0 ↔ min p c + min q c = 0 := by omega
              generalize min p c = p2 at *
              generalize min q c = q2 at *
              obtain ⟨w1, hw1, s1, c1⟩ := IO.complete v _ _ ⟨by rw [lOA]; omega, by rw [lOB]; omega⟩ (can_odds hp') (can_odds hq')
              have oldAB : ∀ l ∈ A ++ B, w1 l.var = v l.var := fun l hl => hw1 _ ((ho l hl).not_new (Nat.le_refl _))
              obtain ⟨w2, hw2, s2, c2⟩ := IE.complete w1 _ _ ⟨by rw [lEA]; omega, by rw [lEB]; omega⟩
                ((can_congr fun l hl => oldAB l (by simp [memA l (mem_evens hl)])).2 (can_evens hp')) ((can_congr fun l hl => oldAB l (by simp [memB l (mem_evens hl)])).2 (can_evens hq'))
              rw [hOe] at c1
              have c1' : Can w2 (o :: os) ((p2 + 1) / 2 + (q2 + 1) / 2) := (can_congr fun l hl => hw2 _ ((oldO l hl).not_new (Nat.le_refl _))).2 c1
              have tl : Can w2 os ((p2 + 1) / 2 + (q2 + 1) / 2 - 1) := fun i l hl => by
                rw [c1' (i + 1) l hl]; simp only [decide_eq_decide]; omega
              obtain ⟨f1, f2, f3, f4, f5, f6, f7⟩ := mergeArith hx hy hcle hc2 hp2 hq2 lO lE
              obtain ⟨w3, hw3, s3, c3⟩ := IL.complete w2 (min ((p2 + 1) / 2 + (q2 + 1) / 2 - 1) os.length) (min (p2 / 2 + q2 / 2) E.out.length) ⟨f1, f2, f3, f4⟩
                (can_len tl (by simp)) (can_len c2 (by simp))
              refine ⟨w3, fun x hx => ?_, ?_, ?_⟩
              · rw [hw3 x fun h => hx (h.mono (by omega) (Nat.le_refl _)), hw2 x fun h => hx (h.mono hO hR), hw1 x fun h => hx (h.mono (Nat.le_refl _) (by omega))]
              · simp only [sat_append]
                have oo : ∀ l ∈ A ++ B, Old k l := ho
                have t1 : Sat w2 O.cls := (sat_congr fun cl hcl l hl => by
                  apply hw2
                  rcases IO.vars cl hcl l hl with ⟨x, hx, e⟩ | ⟨n, e, a, b⟩
                  · rw [← e]
                    refine (oo x ?_).not_new hO
                    rcases List.mem_append.1 hx with h | h
                    · simp [memA x (mem_odds h)]
                    · simp [memB x (mem_odds h)]
                  · rw [e]; rintro ⟨n', e', a', b'⟩; cases e'; omega).2 s1
                have t1' : Sat w3 O.cls := (sat_congr fun cl hcl l hl => by
                  apply hw3
                  rcases IO.vars cl hcl l hl with ⟨x, hx, e⟩ | ⟨n, e, a, b⟩
                  · rw [← e]
                    refine (oo x ?_).not_new (by omega)
                    rcases List.mem_append.1 hx with h | h
                    · simp [memA x (mem_odds h)]
                    · simp [memB x (mem_odds h)]
                  · rw [e]; rintro ⟨n', e', a', b'⟩; cases e'; omega).2 t1
                have t2 : Sat w3 E.cls := (sat_congr fun cl hcl l hl => by
                  apply hw3
                  rcases IE.vars cl hcl l hl with ⟨x, hx, e⟩ | ⟨n, e, a, b⟩
                  · rw [← e]
                    refine (oo x ?_).not_new (by omega)
                    rcases List.mem_append.1 hx with h | h
                    · simp [memA x (mem_evens h)]
                    · simp [memB x (mem_evens h)]
                  · rw [e]; rintro ⟨n', e', a', b'⟩; cases e'; omega).2 s2
                exact ⟨⟨t1', t2⟩, s3⟩
              · have eo : o.eval w3 = decide (0 < (p2 + 1) / 2 + (q2 + 1) / 2) := by
                  rw [eval_congr_var (hw3 _ (((oldO o (by simp)).mono hE).not_new (Nat.le_refl _)))]; exact c1' 0 o rfl
                apply can_of
                · rw [up_cons]
                  refine ⟨fun h => by rw [eo]; simp only [decide_eq_true_eq]; omega, up_len c3.up (Nat.le_trans ?_ f5)⟩
                  rw [lR]
                  have : min (c - 1) (os.length + E.out.length) ≤ c - 1 := Nat.min_le_left _ _
                  generalize min (c - 1) (os.length + E.out.length) = z at *
                  omega
                · rw [lo_cons]
                  refine ⟨fun h => by rw [eo] at h; simp only [decide_eq_true_eq] at h; omega, lo_len c3.lo (Nat.le_trans (Nat.min_le_left _ _) ?_)⟩
                  by_cases h0 : p2 + q2 = 0
                  · have := f7 h0; omega
                  · have := f6 (by omega); omega

end Verif.Enc
