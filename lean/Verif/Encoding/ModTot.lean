import Verif.Encoding.CCBase
import Verif.Encoding.AmoRec
/-! # The modular totalizer -/
set_option linter.unusedSectionVars false
namespace Verif.Enc
open Verif
variable {α : Type}

def TL (w : EV α → Bool) (o : OLit α) : Prop := ∃ l, o = some l ∧ l.eval w = true
def FL (w : EV α → Bool) (o : OLit α) : Prop := ∃ l, o = some l ∧ l.eval w = false
theorem TL.neg {w : EV α → Bool} {o : OLit α} (h : TL w o) : FL w (oneg o) := by
  obtain ⟨l, rfl, h⟩ := h; exact ⟨l.neg, rfl, by rw [Lit.eval_neg, h]; rfl⟩
theorem ocl_elim {w : EV α → Bool} {os : List (OLit α)} (hs : Sat w (ocl os)) (P : Prop) (h : ∀ o ∈ os, FL w o ∨ (∃ t, o = some t ∧ (t.eval w = true → P))) : P := by
  obtain ⟨l, hl, e⟩ := sat_ocl.1 hs fun o ho => by
    rcases h o ho with ⟨l, rfl, _⟩ | ⟨t, rfl, _⟩ <;> simp
  rcases h _ hl with ⟨l', e', h⟩ | ⟨t, e', h⟩
  · cases e'; rw [e] at h; simp at h
  · cases e'; exact h e
theorem sat_ocl_of {w : EV α → Bool} {os : List (OLit α)} (h : ∃ o ∈ os, ∀ l, o = some l → l.eval w = true) : Sat w (ocl os) := by
  rw [sat_ocl]
  intro hn
  obtain ⟨o, ho, h⟩ := h
  cases o with
  | none => exact absurd rfl (hn none ho)
  | some l => exact ⟨l, ho, h l rfl⟩
theorem oneg_true {w : EV α → Bool} {o : OLit α} (h : ∀ m, o = some m → m.eval w = false) : ∀ l, oneg o = some l → l.eval w = true := by
  intro l hl
  cases o with
  | none => simp [oneg] at hl
  | some m => simp only [oneg, Option.map_some, Option.some.injEq] at hl; subst hl; rw [Lit.eval_neg, h m rfl]; rfl

def UPU (w : EV α → Bool) (u : Upper α) (n : Nat) : Prop := ∀ (i : Nat) l, u[i]? = some (some l) → i < n → l.eval w = true
def CanU (w : EV α → Bool) (u : Upper α) (n : Nat) : Prop := ∀ (i : Nat) l, u[i]? = some (some l) → l.eval w = decide (i < n)

/-- the shape of the two parts of the output of a node with `s` leaves -/
structure Shape (M s : Nat) (u : Upper α) (low : List (Lit (EV α))) : Prop where
  low_len : low.length = min s (M - 1)
  zero : s / M = 0 → ∀ o ∈ u, o = none
  pos : s / M ≠ 0 → u.length = s / M ∧ ∀ o ∈ u, o ≠ none
  ne : u ≠ []

theorem Shape.get {M s : Nat} {u : Upper α} {low : List (Lit (EV α))} (h : Shape M s u low) {i : Nat} (hi : i < s / M) : ∃ l, u[i]? = some (some l) := by
  obtain ⟨h1, h2⟩ := h.pos (by omega)
  have h3 : i < u.length := by omega
  have := h2 _ (List.getElem_mem h3)
  cases e : u[i] with
  | none => exact absurd e this
  | some l => exact ⟨l, by rw [List.getElem?_eq_getElem h3, e]⟩
theorem Shape.get_none {M s : Nat} {u : Upper α} {low : List (Lit (EV α))} (h : Shape M s u low) {i : Nat} (hi : s / M ≤ i) : u[i]?.join = none := by
  by_cases h0 : s / M = 0
  · cases e : u[i]? with
    | none => rfl
    | some o => rw [h.zero h0 o (List.mem_of_getElem? e)]; rfl
  · obtain ⟨h1, _⟩ := h.pos h0
    rw [List.getElem?_eq_none (by omega)]; rfl

/-- `closeMod`, cc_modular_totalizer.go:178-181 -/
def closeM (mod crhs : Nat) : Nat := if crhs % mod ≠ 0 then crhs / mod + 1 else crhs / mod

section cell
variable {w : EV α → Bool} {M crhs i j : Nat} {carry : OLit α} {lower ll rl : List (Lit (EV α))}

theorem cell_low (hM : M ≤ crhs + 1) (hs : Sat w (mtCell M crhs carry lower ll rl i j)) (hi : i = 0 ∨ TL w ll[i - 1]?) (hj : j = 0 ∨ TL w rl[j - 1]?)
    (h0 : 0 < i + j) (h1 : i + j < M) {t : Lit (EV α)} (ht : lower[i + j - 1]? = some t) : t.eval w = true ∨ TL w carry := by
  unfold mtCell at hs
  rw [if_neg (by omega), if_pos h1] at hs
  have fin : ∀ o : OLit α, o = some t → FL w o ∨ (∃ t', o = some t' ∧ (t'.eval w = true → t.eval w = true ∨ TL w carry)) := fun o ho => .inr ⟨t, ho, .inl⟩
  have finc : carry.isSome = true → FL w carry ∨ (∃ t', carry = some t' ∧ (t'.eval w = true → t.eval w = true ∨ TL w carry)) := fun h => by
    cases hc : carry with
    | none => simp [hc] at h
    | some c => exact .inr ⟨c, rfl, fun h => .inr ⟨c, rfl, h⟩⟩
  split at hs
  · next h =>
    have hj' := hj.resolve_left h.2
    split at hs
    · next hc =>
      refine ocl_elim hs _ fun o ho => ?_
      simp only [List.mem_cons, List.not_mem_nil, or_false] at ho
      rcases ho with rfl | rfl | rfl
      · exact .inl hj'.neg
      · exact fin _ ht
      · exact finc hc
    · refine ocl_elim hs _ fun o ho => ?_
      simp only [List.mem_cons, List.not_mem_nil, or_false] at ho
      rcases ho with rfl | rfl
      · exact .inl hj'.neg
      · exact fin _ ht
  · split at hs
    · next h =>
      have hi' := hi.resolve_left h.2
      split at hs
      · next hc =>
        refine ocl_elim hs _ fun o ho => ?_
        simp only [List.mem_cons, List.not_mem_nil, or_false] at ho
        rcases ho with rfl | rfl | rfl
        · exact .inl hi'.neg
        · exact fin _ ht
        · exact finc hc
      · refine ocl_elim hs _ fun o ho => ?_
        simp only [List.mem_cons, List.not_mem_nil, or_false] at ho
        rcases ho with rfl | rfl
        · exact .inl hi'.neg
        · exact fin _ ht
    · split at hs
      · have hi' := hi.resolve_left (by assumption)
        have hj' := hj.resolve_left (by omega)
        split at hs
        · next hc =>
          refine ocl_elim hs _ fun o ho => ?_
          simp only [List.mem_cons, List.not_mem_nil, or_false] at ho
          rcases ho with rfl | rfl | rfl | rfl
          · exact .inl hi'.neg
          · exact .inl hj'.neg
          · exact fin _ ht
          · exact finc hc
        · refine ocl_elim hs _ fun o ho => ?_
          simp only [List.mem_cons, List.not_mem_nil, or_false] at ho
          rcases ho with rfl | rfl | rfl
          · exact .inl hi'.neg
          · exact .inl hj'.neg
          · exact fin _ ht
      · omega

theorem cell_over (hM : M ≤ crhs + 1) (hs : Sat w (mtCell M crhs carry lower ll rl i j)) (hi : TL w ll[i - 1]?) (hj : TL w rl[j - 1]?)
    (h1 : M < i + j) {t : Lit (EV α)} (ht : lower[(i + j) % M - 1]? = some t) : t.eval w = true := by
  unfold mtCell at hs
  rw [if_neg (by omega), if_neg (by omega), if_pos h1] at hs
  refine ocl_elim hs _ fun o ho => ?_
  simp only [List.mem_cons, List.not_mem_nil, or_false] at ho
  rcases ho with rfl | rfl | rfl
  · exact .inl hi.neg
  · exact .inl hj.neg
  · exact .inr ⟨t, ht, id⟩
theorem cell_carry (hM : M ≤ crhs + 1) (hs : Sat w (mtCell M crhs carry lower ll rl i j)) (hi : TL w ll[i - 1]?) (hj : TL w rl[j - 1]?)
    (h1 : i + j = M) {t : Lit (EV α)} (ht : carry = some t) : t.eval w = true := by
  unfold mtCell at hs
  rw [if_neg (by omega), if_neg (by omega), if_neg (by omega)] at hs
  refine ocl_elim hs _ fun o ho => ?_
  simp only [List.mem_cons, List.not_mem_nil, or_false] at ho
  rcases ho with rfl | rfl | rfl
  · exact .inl hi.neg
  · exact .inl hj.neg
  · exact .inr ⟨t, ht, id⟩

theorem cell_can {r1 r2 r : Nat} (hL : Can w ll r1) (hR : Can w rl r2) (hO : Can w lower r) (hr1 : r1 < M) (hr2 : r2 < M) (hr : r = (r1 + r2) % M)
    (hc : ∀ c, carry = some c → c.eval w = decide (M ≤ r1 + r2)) (hcn : carry = none → r1 + r2 < M) (hi : i < M) (hj : j < M) : Sat w (mtCell M crhs carry lower ll rl i j) := by
  have hrr : (r1 + r2 < M ∧ r = r1 + r2) ∨ (M ≤ r1 + r2 ∧ r + M = r1 + r2) := by
    by_cases h : r1 + r2 < M
    · exact .inl ⟨h, by rw [hr, Nat.mod_eq_of_lt h]⟩
    · refine .inr ⟨by omega, ?_⟩
      rw [hr, Nat.mod_eq_sub_mod (by omega), Nat.mod_eq_of_lt (by omega)]; omega
  have nl : 0 < i → r1 < i → ∀ l, oneg ll[i - 1]? = some l → l.eval w = true := fun h0 h => oneg_true fun m hm => by rw [hL _ _ hm]; simp; omega
  have nr : 0 < j → r2 < j → ∀ l, oneg rl[j - 1]? = some l → l.eval w = true := fun h0 h => oneg_true fun m hm => by rw [hR _ _ hm]; simp; omega
  have lo : ∀ n, n < r → ∀ l, lower[n]? = some l → l.eval w = true := fun n hn l hl => by rw [hO _ _ hl]; simpa using hn
  have ca : M ≤ r1 + r2 → ∀ l, carry = some l → l.eval w = true := fun h l hl => by rw [hc l hl]; simpa using h
  unfold mtCell
  split
  · simp
  · split
    · split
      · next h =>
        by_cases h2 : r2 < j
        · split <;> exact sat_ocl_of ⟨_, by simp, nr (by omega) h2⟩
        · by_cases h3 : r1 + r2 < M
          · have := lo (i + j - 1) (by omega)
            split <;> exact sat_ocl_of ⟨_, by simp, this⟩
          · split
            · exact sat_ocl_of ⟨carry, by simp, ca (by omega)⟩
            · next hn => exact absurd (hcn (by simpa using hn)) h3
      · split
        · next h =>
          by_cases h2 : r1 < i
          · split <;> exact sat_ocl_of ⟨_, by simp, nl (by omega) h2⟩
          · by_cases h3 : r1 + r2 < M
            · have := lo (i + j - 1) (by omega)
              split <;> exact sat_ocl_of ⟨_, by simp, this⟩
            · split
              · exact sat_ocl_of ⟨carry, by simp, ca (by omega)⟩
              · next hn => exact absurd (hcn (by simpa using hn)) h3
        · split
          · by_cases h2 : r1 < i
            · split <;> exact sat_ocl_of ⟨_, by simp, nl (by omega) h2⟩
            · by_cases h2' : r2 < j
              · split <;> exact sat_ocl_of ⟨oneg rl[j - 1]?, by simp, nr (by omega) h2'⟩
              · by_cases h3 : r1 + r2 < M
                · have := lo (i + j - 1) (by omega)
                  split <;> exact sat_ocl_of ⟨_, by simp, this⟩
                · split
                  · exact sat_ocl_of ⟨carry, by simp, ca (by omega)⟩
                  · next hn => exact absurd (hcn (by simpa using hn)) h3
          · simp
    · by_cases h2 : r1 < i
      · split <;> exact sat_ocl_of ⟨_, by simp, nl (by omega) h2⟩
      · by_cases h2' : r2 < j
        · split <;> exact sat_ocl_of ⟨oneg rl[j - 1]?, by simp, nr (by omega) h2'⟩
        · split
          · refine sat_ocl_of ⟨_, List.mem_cons_of_mem _ (List.mem_cons_of_mem _ (List.mem_cons_self)), lo _ ?_⟩
            rw [Nat.mod_eq_sub_mod (by omega), Nat.mod_eq_of_lt (by omega)]; omega
          · exact sat_ocl_of ⟨carry, by simp, ca (by omega)⟩
end cell

section final
variable {w : EV α → Bool} {M crhs i j : Nat} {carry : Lit (EV α)} {upper lu ru : Upper α}

theorem sat_ifMany {c : Clause α} : Sat w (ifMany c) ↔ (1 < c.length → ∃ l ∈ c, l.eval w = true) := by
  unfold ifMany
  split
  · next h => simp [Sat, h]
  · next h => simp [h]

/-- the literal of an input position: absent at position zero -/
def pick (u : Upper α) (i : Nat) : OLit α := if i ≠ 0 then u[i - 1]?.join else none

theorem finalCell_eq : finalCell M crhs carry upper lu ru i j =
    if M * (i + j) > closeM M crhs * M then [] else
      (match pick upper (i + j) with
      | some c => ifMany ((oneg (pick lu i)).toList ++ (oneg (pick ru j)).toList ++ [c])
      | none => []) ++ ifMany (carry.neg :: ((oneg (pick lu i)).toList ++ (oneg (pick ru j)).toList ++ (upper[i + j]?.join).toList)) := rfl

theorem oneg_toList_false {o : OLit α} (h : ∀ l, o = some l → l.eval w = true) : ∀ l ∈ (oneg o).toList, l.eval w = false := by
  intro l hl
  cases o with
  | none => simp [oneg] at hl
  | some m => simp [oneg] at hl; subst hl; rw [Lit.eval_neg, h m rfl]; rfl

theorem final_up (hs : Sat w (finalCell M crhs carry upper lu ru i j)) (hK : i + j ≤ closeM M crhs) (h0 : 0 < i + j)
    (hi : i = 0 ∨ TL w (pick lu i)) (hj : j = 0 ∨ TL w (pick ru j)) {t : Lit (EV α)} (ht : upper[i + j - 1]? = some (some t)) : t.eval w = true := by
  rw [finalCell_eq, if_neg (by rw [Nat.mul_comm M]; exact Nat.not_lt.2 (Nat.mul_le_mul_right _ hK)), sat_append] at hs
  have hp : pick upper (i + j) = some t := by rw [pick, if_pos (by omega), ht]; rfl
  rw [hp] at hs
  have h := sat_ifMany.1 hs.1
  have fi : ∀ l ∈ (oneg (pick lu i)).toList, l.eval w = false := oneg_toList_false fun l hl => by
    rcases hi with rfl | ⟨m, hm, e⟩
    · simp [pick] at hl
    · rw [hl] at hm; cases hm; exact e
  have fj : ∀ l ∈ (oneg (pick ru j)).toList, l.eval w = false := oneg_toList_false fun l hl => by
    rcases hj with rfl | ⟨m, hm, e⟩
    · simp [pick] at hl
    · rw [hl] at hm; cases hm; exact e
  obtain ⟨l, hl, e⟩ := h (by
    rcases hi with rfl | ⟨m, hm, _⟩
    · rcases hj with rfl | ⟨m, hm, _⟩
      · omega
      · simp [hm, oneg]
    · simp [hm, oneg])
  simp only [List.mem_append, List.mem_singleton] at hl
  rcases hl with (hl | hl) | rfl
  · rw [fi l hl] at e; simp at e
  · rw [fj l hl] at e; simp at e
  · exact e

theorem final_carry (hs : Sat w (finalCell M crhs carry upper lu ru i j)) (hK : i + j ≤ closeM M crhs) (hc : carry.eval w = true)
    (hi : i = 0 ∨ TL w (pick lu i)) (hj : j = 0 ∨ TL w (pick ru j)) : (0 < i + j ∨ ∃ t, upper[i + j]? = some (some t)) → ∃ t, upper[i + j]? = some (some t) ∧ t.eval w = true := by
  intro hex
  rw [finalCell_eq, if_neg (by rw [Nat.mul_comm M]; exact Nat.not_lt.2 (Nat.mul_le_mul_right _ hK)), sat_append] at hs
  have h := sat_ifMany.1 hs.2
  have fi : ∀ l ∈ (oneg (pick lu i)).toList, l.eval w = false := oneg_toList_false fun l hl => by
    rcases hi with rfl | ⟨m, hm, e⟩
    · simp [pick] at hl
    · rw [hl] at hm; cases hm; exact e
  have fj : ∀ l ∈ (oneg (pick ru j)).toList, l.eval w = false := oneg_toList_false fun l hl => by
    rcases hj with rfl | ⟨m, hm, e⟩
    · simp [pick] at hl
    · rw [hl] at hm; cases hm; exact e
  obtain ⟨l, hl, e⟩ := h (by
    rcases hex with hex | ⟨t, ht⟩
    · rcases hi with rfl | ⟨m, hm, _⟩
      · rcases hj with rfl | ⟨m, hm, _⟩
        · omega
        · simp [hm, oneg]
      · simp [hm, oneg]
    · simp [ht])
  simp only [List.mem_cons, List.mem_append] at hl
  rcases hl with rfl | (hl | hl) | hl
  · rw [Lit.eval_neg, hc] at e; simp at e
  · rw [fi l hl] at e; simp at e
  · rw [fj l hl] at e; simp at e
  · cases hu : upper[i + j]? with
    | none => simp [hu] at hl
    | some o =>
      cases o with
      | none => simp [hu] at hl
      | some t => simp [hu] at hl; subst hl; exact ⟨_, rfl, e⟩

theorem final_can {sA sB q1 q2 q : Nat} {cr : Bool} {lA lB lo : List (Lit (EV α))} (hA : Shape M sA lu lA) (hB : Shape M sB ru lB) (hO : Shape M (sA + sB) upper lo) (hAB : sB ≤ sA) (hBA : sA ≤ sB + 1)
    (hM : 2 ≤ M) (hi : i ≤ lu.length) (hj : j ≤ ru.length)
    (cA : CanU w lu q1) (cB : CanU w ru q2) (cO : CanU w upper q) (hc : carry.eval w = cr) (hq : q = if cr then q1 + q2 + 1 else q1 + q2) (hqs : q ≤ (sA + sB) / M)
    (hbig : sB < M → cr = true → q1 = 0) : Sat w (finalCell M crhs carry upper lu ru i j) := by
  rw [finalCell_eq]
  split
  · simp
  rw [sat_append]
  have hdm : ∀ s, M ≤ s → s / M ≠ 0 := fun s h => by have := Nat.div_pos h (by omega); omega
  have gu : ∀ n t, n < q → upper[n]? = some (some t) → t.eval w = true := fun n t hn ht => by rw [cO n t ht]; simpa using hn
  have getpick : ∀ (u : Upper α) n t, pick u n = some t → n ≠ 0 ∧ u[n - 1]? = some (some t) := fun u n t h => by
    unfold pick at h
    split at h
    · next h0 => exact ⟨h0, by cases e : u[n - 1]? with
        | none => simp [e] at h
        | some o => rw [e] at h; simp at h; rw [h]⟩
    · simp at h
  have pA : ∀ m, pick lu i = some m → m.eval w = false ∨ i ≤ q1 := fun m h => by
    obtain ⟨h0, h⟩ := getpick _ _ _ h
    rw [cA _ _ h]
    by_cases h' : i ≤ q1
    · exact .inr h'
    · left; simp; omega
  have pB : ∀ m, pick ru j = some m → m.eval w = false ∨ j ≤ q2 := fun m h => by
    obtain ⟨h0, h⟩ := getpick _ _ _ h
    rw [cB _ _ h]
    by_cases h' : j ≤ q2
    · exact .inr h'
    · left; simp; omega
  have negin : ∀ (o : OLit α) m, o = some m → m.eval w = false → ∃ l ∈ (oneg o).toList, l.eval w = true := fun o m h e =>
    ⟨m.neg, by simp [h, oneg], by rw [Lit.eval_neg, e]; rfl⟩
  have hqle : q1 + q2 ≤ q := by rw [hq]; split <;> omega
  by_cases hs : sB < M
  · have hB0 : sB / M = 0 := Nat.div_eq_of_lt hs
    have hS : (sA + sB) / M ≤ 1 := by
      have : (sA + sB) / M < 2 := by rw [Nat.div_lt_iff_lt_mul (by omega)]; omega
      omega
    have hpB : pick ru j = none := by
      unfold pick; split
      · exact hB.get_none (by omega)
      · rfl
    constructor
    · cases hp : pick upper (i + j) with
      | none => simp
      | some c =>
        obtain ⟨h0, hg⟩ := getpick _ _ _ hp
        have h1 : i + j - 1 < 1 := by
          by_contra h
          have := hO.get_none (i := i + j - 1) (by omega)
          rw [hg] at this; simp at this
        simp only [hpB]
        rw [sat_ifMany]
        intro hlen
        cases hpA : pick lu i with
        | none => simp [hpA, oneg] at hlen
        | some m =>
          have hi0 := (getpick _ _ _ hpA).1
          rcases pA m hpA with h | h
          · obtain ⟨l, hl, e⟩ := negin _ m hpA h
            exact ⟨l, by rw [hpA] at hl; simp [hl], e⟩
          · exact ⟨c, by simp, gu _ _ (by omega) hg⟩
    · rw [sat_ifMany, hpB]
      intro hlen
      cases hcr : cr with
      | false => exact ⟨carry.neg, by simp, by rw [Lit.eval_neg, hc, hcr]; rfl⟩
      | true =>
        have hq1 := hbig hs hcr
        rw [hcr] at hq
        by_cases h0 : i + j = 0
        · cases hd : upper[i + j]?.join with
          | none =>
            have : i = 0 := by omega
            rw [hd] at hlen; simp [oneg, this, pick] at hlen
          | some d =>
            have hd' : upper[i + j]? = some (some d) := by
              cases e : upper[i + j]? with
              | none => simp [e] at hd
              | some o => rw [e] at hd; simp at hd; rw [hd]
            exact ⟨d, by simp, gu _ _ (by rw [hq]; simp; omega) hd'⟩
        · have hd : upper[i + j]?.join = none := hO.get_none (by omega)
          cases hpA : pick lu i with
          | none => rw [hd] at hlen; simp [hpA, oneg] at hlen
          | some m =>
            have hi0 := (getpick _ _ _ hpA).1
            rcases pA m hpA with h | h
            · obtain ⟨l, hl, e⟩ := negin _ m hpA h
              exact ⟨l, by rw [hpA] at hl; simp [hl], e⟩
            · omega
  · have hA0 := hdm sA (by omega)
    have hB0 := hdm sB (by omega)
    have hlA := (hA.pos hA0).1
    have hlB := (hB.pos hB0).1
    -- present, hence false or within the number
    have pA' : (∃ l ∈ (oneg (pick lu i)).toList, l.eval w = true) ∨ i ≤ q1 := by
      by_cases h0 : i = 0
      · exact .inr (by omega)
      · obtain ⟨l, hl⟩ := hA.get (i := i - 1) (by omega)
        have hp : pick lu i = some l := by rw [pick, if_pos h0, hl]; rfl
        rcases pA l hp with h | h
        · exact .inl (negin _ l hp h)
        · exact .inr h
    have pB' : (∃ l ∈ (oneg (pick ru j)).toList, l.eval w = true) ∨ j ≤ q2 := by
      by_cases h0 : j = 0
      · exact .inr (by omega)
      · obtain ⟨l, hl⟩ := hB.get (i := j - 1) (by omega)
        have hp : pick ru j = some l := by rw [pick, if_pos h0, hl]; rfl
        rcases pB l hp with h | h
        · exact .inl (negin _ l hp h)
        · exact .inr h
    constructor
    · cases hp : pick upper (i + j) with
      | none => simp
      | some c =>
        obtain ⟨h0, hg⟩ := getpick _ _ _ hp
        simp only
        rw [sat_ifMany]
        intro _
        rcases pA' with ⟨l, hl, e⟩ | hA'
        · exact ⟨l, by simp only [List.mem_append]; exact .inl (.inl hl), e⟩
        · rcases pB' with ⟨l, hl, e⟩ | hB'
          · exact ⟨l, by simp only [List.mem_append]; exact .inl (.inr hl), e⟩
          · exact ⟨c, by simp, gu _ _ (by omega) hg⟩
    · rw [sat_ifMany]
      intro _
      rcases pA' with ⟨l, hl, e⟩ | hA'
      · exact ⟨l, by simp only [List.mem_cons, List.mem_append]; exact .inr (.inl (.inl hl)), e⟩
      · rcases pB' with ⟨l, hl, e⟩ | hB'
        · exact ⟨l, by simp only [List.mem_cons, List.mem_append]; exact .inr (.inl (.inr hl)), e⟩
        · cases hcr : cr with
          | false => exact ⟨carry.neg, by simp, by rw [Lit.eval_neg, hc, hcr]; rfl⟩
          | true =>
            rw [hcr] at hq
            simp only [if_true] at hq
            obtain ⟨d, hd⟩ := hO.get (i := i + j) (by omega)
            exact ⟨d, by simp [hd], gu _ _ (by omega) hd⟩
end final

/-! ### one node -/

theorem mtAdder_zero {M crhs k s : Nat} {upper : Upper α} {lower : List (Lit (EV α))} {lu ru : Upper α} {ll rl : List (Lit (EV α))} (h : Shape M s upper lower) (h0 : s / M = 0) :
    mtAdder M crhs k upper lower lu ll ru rl = (grid ll.length rl.length (mtCell M crhs none lower ll rl), k) := by
  unfold mtAdder
  cases upper with
  | nil => rfl
  | cons o u => rw [h.zero h0 o (by simp)]; rfl
theorem mtAdder_pos {M crhs k s : Nat} {upper : Upper α} {lower : List (Lit (EV α))} {lu ru : Upper α} {ll rl : List (Lit (EV α))} (h : Shape M s upper lower) (h0 : s / M ≠ 0) :
    mtAdder M crhs k upper lower lu ll ru rl =
    (grid ll.length rl.length (mtCell M crhs (some (al k)) lower ll rl) ++ grid lu.length ru.length (finalCell M crhs (al k) upper lu ru), k + 1) := by
  unfold mtAdder
  cases upper with
  | nil => exact absurd rfl h.ne
  | cons o u =>
    cases o with
    | none => exact absurd rfl ((h.pos h0).2 none (by simp))
    | some l => rfl

/-- a number at least `c` (or beyond the limit `K`) can be read off the outputs -/
def Num (w : EV α → Bool) (M K s : Nat) (u : Upper α) (low : List (Lit (EV α))) (c : Nat) : Prop :=
  ∃ q r, q ≤ s / M ∧ r ≤ low.length ∧ (c ≤ q * M + r ∨ K ≤ q) ∧ UPU w u q ∧ UP w low r

theorem adder_num {w : EV α → Bool} {M crhs k sA sB cA cB : Nat} {upper lu ru : Upper α} {lower ll rl : List (Lit (EV α))}
    (hA : Shape M sA lu ll) (hB : Shape M sB ru rl) (hO : Shape M (sA + sB) upper lower) (hM : 2 ≤ M) (hMc : M ≤ crhs + 1)
    (hs : Sat w (mtAdder M crhs k upper lower lu ll ru rl).1)
    (nA : Num w M (closeM M crhs) sA lu ll cA) (nB : Num w M (closeM M crhs) sB ru rl cB) : Num w M (closeM M crhs) (sA + sB) upper lower (cA + cB) := by
  obtain ⟨q1, r1, hq1, hr1, v1, uA, lA⟩ := nA
  obtain ⟨q2, r2, hq2, hr2, v2, uB, lB⟩ := nB
  have hsum : sA / M + sB / M ≤ (sA + sB) / M := by
    rw [Nat.le_div_iff_mul_le (by omega), Nat.add_mul]
    have := Nat.div_mul_le_self sA M
    have := Nat.div_mul_le_self sB M
    omega
  have tA : ∀ i, 0 < i → i ≤ r1 → TL w ll[i - 1]? := fun i h0 h => by
    have : i - 1 < ll.length := by omega
    exact ⟨_, List.getElem?_eq_getElem this, lA _ _ (List.getElem?_eq_getElem this) (by omega)⟩
  have tB : ∀ i, 0 < i → i ≤ r2 → TL w rl[i - 1]? := fun i h0 h => by
    have : i - 1 < rl.length := by omega
    exact ⟨_, List.getElem?_eq_getElem this, lB _ _ (List.getElem?_eq_getElem this) (by omega)⟩
  have hlA := hA.low_len
  have hlB := hB.low_len
  have hlO := hO.low_len
  by_cases h0 : (sA + sB) / M = 0
  · have hlt : sA + sB < M := by
      rcases Nat.lt_or_ge (sA + sB) M with h | h
      · exact h
      · have := Nat.div_pos h (by omega); omega
    rw [mtAdder_zero hO h0] at hs
    have hg := sat_grid.1 hs
    refine ⟨q1 + q2, r1 + r2, by omega, by omega, ?_, ?_, ?_⟩
    · rcases v1 with v1 | v1
      · rcases v2 with v2 | v2
        · left; rw [Nat.add_mul]; omega
        · right; omega
      · right; omega
    · intro i l hl hi; omega
    · intro t o ho ht
      have h := hg (min r1 (t + 1)) (t + 1 - min r1 (t + 1)) (by omega) (by omega)
      rcases cell_low hMc h (by by_cases e : min r1 (t + 1) = 0
                                · exact .inl e
                                · exact .inr (tA _ (by omega) (by omega)))
        (by by_cases e : t + 1 - min r1 (t + 1) = 0
            · exact .inl e
            · exact .inr (tB _ (by omega) (by omega))) (by omega) (by omega)
        (t := o) (by rw [show min r1 (t + 1) + (t + 1 - min r1 (t + 1)) - 1 = t by omega]; exact ho) with h | ⟨l, hl, _⟩
      · exact h
      · simp at hl
  · rw [mtAdder_pos hO h0, sat_append] at hs
    have hg := sat_grid.1 hs.1
    have hf := sat_grid.1 hs.2
    have hle : M ≤ sA + sB := by
      rcases Nat.lt_or_ge (sA + sB) M with h | h
      · exact absurd (Nat.div_eq_of_lt h) h0
      · exact h
    have hulA : q1 ≤ lu.length := by
      by_cases e : sA / M = 0
      · omega
      · have := (hA.pos e).1; omega
    have hulB : q2 ≤ ru.length := by
      by_cases e : sB / M = 0
      · omega
      · have := (hB.pos e).1; omega
    have pA : ∀ i, i ≤ q1 → i = 0 ∨ TL w (pick lu i) := fun i h => by
      by_cases e : i = 0
      · exact .inl e
      · obtain ⟨l, hl⟩ := hA.get (i := i - 1) (by omega)
        exact .inr ⟨l, by rw [pick, if_pos e, hl]; rfl, uA _ _ hl (by omega)⟩
    have pB : ∀ i, i ≤ q2 → i = 0 ∨ TL w (pick ru i) := fun i h => by
      by_cases e : i = 0
      · exact .inl e
      · obtain ⟨l, hl⟩ := hB.get (i := i - 1) (by omega)
        exact .inr ⟨l, by rw [pick, if_pos e, hl]; rfl, uB _ _ hl (by omega)⟩
    -- the upper parts add up
    have hup : UPU w upper (min (q1 + q2) (closeM M crhs)) := by
      intro t o ho ht
      have h := hf (min q1 (t + 1)) (t + 1 - min q1 (t + 1)) (by omega) (by omega)
      exact final_up h (by omega) (by omega) (pA _ (by omega)) (pB _ (by omega))
        (by rw [show min q1 (t + 1) + (t + 1 - min q1 (t + 1)) - 1 = t by omega]; exact ho)
    by_cases hK : closeM M crhs ≤ q1 + q2
    · refine ⟨closeM M crhs, 0, by omega, by omega, .inr (Nat.le_refl _), ?_, fun i l _ h => by omega⟩
      rwa [Nat.min_eq_right hK] at hup
    · have hup' : UPU w upper (q1 + q2) := by rwa [Nat.min_eq_left (by omega)] at hup
      have v1' := v1.resolve_right (by omega)
      have v2' := v2.resolve_right (by omega)
      -- a true carry
      have hcar : (al k : Lit (EV α)).eval w = true → q1 + q2 + 1 ≤ (sA + sB) / M ∧ UPU w upper (q1 + q2 + 1) := by
        intro hc
        have h := hf q1 q2 hulA hulB
        obtain ⟨t, ht, et⟩ := final_carry h (by omega) hc (pA _ (Nat.le_refl _)) (pB _ (Nat.le_refl _)) (by
          by_cases e : q1 + q2 = 0
          · right; rw [e]; exact hO.get (by omega)
          · left; omega)
        have hlt : q1 + q2 < (sA + sB) / M := by
          by_contra hc
          have := hO.get_none (i := q1 + q2) (by omega)
          rw [ht] at this; simp at this
        refine ⟨hlt, fun i l hl hi => ?_⟩
        by_cases e : i = q1 + q2
        · subst e; rw [ht] at hl; cases hl; exact et
        · exact hup' i l hl (by omega)
      by_cases hr : r1 + r2 < M
      · by_cases hc : (al k : Lit (EV α)).eval w = true
        · obtain ⟨h1, h2⟩ := hcar hc
          exact ⟨q1 + q2 + 1, 0, h1, by omega, .inl (by rw [Nat.add_mul, Nat.add_mul]; omega), h2, fun i l _ h => by omega⟩
        · refine ⟨q1 + q2, r1 + r2, by omega, by omega, .inl (by rw [Nat.add_mul]; omega), hup', ?_⟩
          intro t o ho ht
          have h := hg (min r1 (t + 1)) (t + 1 - min r1 (t + 1)) (by omega) (by omega)
          rcases cell_low hMc h (by by_cases e : min r1 (t + 1) = 0
                                    · exact .inl e
                                    · exact .inr (tA _ (by omega) (by omega)))
            (by by_cases e : t + 1 - min r1 (t + 1) = 0
                · exact .inl e
                · exact .inr (tB _ (by omega) (by omega))) (by omega) (by omega)
            (t := o) (by rw [show min r1 (t + 1) + (t + 1 - min r1 (t + 1)) - 1 = t by omega]; exact ho) with h | ⟨l, hl, e⟩
          · exact h
          · cases hl; exact absurd e hc
      · have hc : (al k : Lit (EV α)).eval w = true :=
          cell_carry hMc (hg r1 (M - r1) hr1 (by omega)) (tA _ (by omega) (Nat.le_refl _)) (tB _ (by omega) (by omega)) (by omega) rfl
        obtain ⟨h1, h2⟩ := hcar hc
        refine ⟨q1 + q2 + 1, r1 + r2 - M, h1, by omega, .inl (by rw [Nat.add_mul, Nat.add_mul]; omega), h2, ?_⟩
        intro t o ho ht
        have hi : r1 ≤ M - 1 := by omega
        have h := hg r1 (M + t + 1 - r1) hr1 (by omega)
        refine cell_over hMc h (tA _ (by omega) (Nat.le_refl _)) (tB _ (by omega) (by omega)) (by omega) ?_
        rw [show r1 + (M + t + 1 - r1) = t + 1 + M by omega, Nat.add_mod_right, Nat.mod_eq_of_lt (by omega)]
        exact ho

theorem div_split {M a b : Nat} (hM : 0 < M) : (a + b) / M = (if decide (M ≤ a % M + b % M) then a / M + b / M + 1 else a / M + b / M) := by
  have := Nat.add_div (a := a) (b := b) hM
  rw [this]
  by_cases h : M ≤ a % M + b % M <;> simp [h]

theorem adder_can {w : EV α → Bool} {M crhs k sA sB cA cB : Nat} {upper lu ru : Upper α} {lower ll rl : List (Lit (EV α))}
    (hA : Shape M sA lu ll) (hB : Shape M sB ru rl) (hO : Shape M (sA + sB) upper lower) (hM : 2 ≤ M) (hAB : sB ≤ sA) (hBA : sA ≤ sB + 1)
    (hcA : cA ≤ sA) (hcB : cB ≤ sB) (uA : CanU w lu (cA / M)) (lA : Can w ll (cA % M)) (uB : CanU w ru (cB / M)) (lB : Can w rl (cB % M))
    (uO : CanU w upper ((cA + cB) / M)) (lO : Can w lower ((cA + cB) % M)) (hc : w (.aux k) = decide (M ≤ cA % M + cB % M)) :
    Sat w (mtAdder M crhs k upper lower lu ll ru rl).1 := by
  have hlA := hA.low_len
  have hlB := hB.low_len
  have mA : cA % M < M := Nat.mod_lt _ (by omega)
  have mB : cB % M < M := Nat.mod_lt _ (by omega)
  have mA' := Nat.mod_le cA M
  have mB' := Nat.mod_le cB M
  by_cases h0 : (sA + sB) / M = 0
  · rw [mtAdder_zero hO h0, sat_grid]
    intro i j hi hj
    have hlt : sA + sB < M := by
      rcases Nat.lt_or_ge (sA + sB) M with h | h
      · exact h
      · have := Nat.div_pos h (by omega); omega
    exact cell_can lA lB lO mA mB (by rw [Nat.add_mod]) (by simp) (fun _ => by omega) (by omega) (by omega)
  · rw [mtAdder_pos hO h0, sat_append, sat_grid, sat_grid]
    constructor
    · intro i j hi hj
      exact cell_can lA lB lO mA mB (by rw [Nat.add_mod]) (fun c hc' => by cases hc'; rw [al_eval, hc]) (by simp) (by omega) (by omega)
    · intro i j hi hj
      refine final_can hA hB hO hAB hBA hM hi hj uA uB uO (by rw [al_eval, hc]) (div_split (by omega)) (Nat.div_le_div_right (by omega)) ?_
      intro hsB hcr
      simp at hcr
      by_cases e : cA < M
      · exact Nat.div_eq_of_lt e
      · have hcM : cA = M := by omega
        rw [hcM, Nat.mod_self] at hcr; omega

theorem cell_mem {M crhs i j : Nat} {carry : OLit α} {lower ll rl : List (Lit (EV α))} {c : Clause α} (hc : c ∈ mtCell M crhs carry lower ll rl i j) {l : Lit (EV α)} (hl : l ∈ c) :
    (∃ m ∈ lower ++ ll ++ rl, m.var = l.var) ∨ (∃ m, carry = some m ∧ m.var = l.var) := by
  have kneg : ∀ (ls : List (Lit (EV α))) (n : Nat), (∀ m ∈ ls, m ∈ lower ++ ll ++ rl) → some l = oneg ls[n]? → ∃ m ∈ lower ++ ll ++ rl, m.var = l.var := by
    intro ls n hls h
    obtain ⟨m, hm, e⟩ := oneg_var h.symm
    exact ⟨m, hls m (List.mem_of_getElem? hm), e⟩
  have kL := fun n => kneg ll n (fun m hm => by simp [hm])
  have kR := fun n => kneg rl n (fun m hm => by simp [hm])
  have kO : ∀ n : Nat, some l = lower[n]? → ∃ m ∈ lower ++ ll ++ rl, m.var = l.var := fun n h => ⟨l, by simp [List.mem_of_getElem? h.symm], rfl⟩
  unfold mtCell at hc
  repeat' split at hc
  all_goals first
    | (simp at hc; done)
    | (have := ocl_mem hc l hl
       simp only [List.mem_cons, List.not_mem_nil, or_false] at this
       rcases this with h | h | h | h <;> first
         | exact .inl (kL _ h)
         | exact .inl (kR _ h)
         | exact .inl (kO _ h)
         | exact .inr ⟨l, h.symm, rfl⟩)
    | (have := ocl_mem hc l hl
       simp only [List.mem_cons, List.not_mem_nil, or_false] at this
       rcases this with h | h | h <;> first
         | exact .inl (kL _ h)
         | exact .inl (kR _ h)
         | exact .inl (kO _ h)
         | exact .inr ⟨l, h.symm, rfl⟩)
    | (have := ocl_mem hc l hl
       simp only [List.mem_cons, List.not_mem_nil, or_false] at this
       rcases this with h | h <;> first
         | exact .inl (kL _ h)
         | exact .inl (kR _ h)
         | exact .inl (kO _ h)
         | exact .inr ⟨l, h.symm, rfl⟩)

theorem pick_mem {u : Upper α} {n : Nat} {t : Lit (EV α)} (h : pick u n = some t) : some t ∈ u := by
  unfold pick at h
  split at h
  · cases e : u[n - 1]? with
    | none => simp [e] at h
    | some o => rw [e] at h; simp at h; subst h; exact List.mem_of_getElem? e
  · simp at h

theorem final_mem {M crhs i j : Nat} {carry : Lit (EV α)} {upper lu ru : Upper α} {c : Clause α} (hc : c ∈ finalCell M crhs carry upper lu ru i j) {l : Lit (EV α)} (hl : l ∈ c) :
    (∃ m, some m ∈ upper ++ lu ++ ru ∧ m.var = l.var) ∨ carry.var = l.var := by
  have kneg : ∀ o : OLit α, (∀ m, o = some m → some m ∈ upper ++ lu ++ ru) → l ∈ (oneg o).toList → ∃ m, some m ∈ upper ++ lu ++ ru ∧ m.var = l.var := by
    intro o ho h
    cases o with
    | none => simp [oneg] at h
    | some m => simp [oneg] at h; exact ⟨m, ho m rfl, by rw [h]; rfl⟩
  have kA := kneg (pick lu i) (fun m hm => by simp [pick_mem hm])
  have kB := kneg (pick ru j) (fun m hm => by simp [pick_mem hm])
  have im : ∀ d : Clause α, c ∈ ifMany d → c = d := fun d h => by unfold ifMany at h; split at h <;> simp_all
  rw [finalCell_eq] at hc
  split at hc
  · simp at hc
  rw [List.mem_append] at hc
  rcases hc with hc | hc
  · cases hp : pick upper (i + j) with
    | none => rw [hp] at hc; simp at hc
    | some t =>
      rw [hp] at hc
      have := im _ hc
      subst this
      simp only [List.mem_append, List.mem_singleton] at hl
      rcases hl with (hl | hl) | rfl
      · exact .inl (kA hl)
      · exact .inl (kB hl)
      · exact .inl ⟨l, by simp [pick_mem hp], rfl⟩
  · have := im _ hc
    subst this
    simp only [List.mem_cons, List.mem_append] at hl
    rcases hl with rfl | (hl | hl) | hl
    · exact .inr rfl
    · exact .inl (kA hl)
    · exact .inl (kB hl)
    · cases e : upper[i + j]? with
      | none => simp [e] at hl
      | some o =>
        cases o with
        | none => simp [e] at hl
        | some t => simp [e] at hl; subst hl; exact .inl ⟨_, by simp [List.mem_of_getElem? e], rfl⟩

/-- literals of a node -/
def InNode (u : Upper α) (low : List (Lit (EV α))) (m : Lit (EV α)) : Prop := some m ∈ u ∨ m ∈ low

theorem adder_mem {M crhs k s : Nat} {upper lu ru : Upper α} {lower ll rl : List (Lit (EV α))} (h : Shape M s upper lower) {c : Clause α}
    (hc : c ∈ (mtAdder M crhs k upper lower lu ll ru rl).1) {l : Lit (EV α)} (hl : l ∈ c) :
    (∃ m, (InNode upper lower m ∨ InNode lu ll m ∨ InNode ru rl m) ∧ m.var = l.var) ∨ New k (mtAdder M crhs k upper lower lu ll ru rl).2 l.var := by
  have conv1 : (∃ m ∈ lower ++ ll ++ rl, m.var = l.var) → ∃ m, (InNode upper lower m ∨ InNode lu ll m ∨ InNode ru rl m) ∧ m.var = l.var := by
    rintro ⟨m, hm, e⟩
    simp only [List.mem_append] at hm
    rcases hm with (hm | hm) | hm
    · exact ⟨m, .inl (.inr hm), e⟩
    · exact ⟨m, .inr (.inl (.inr hm)), e⟩
    · exact ⟨m, .inr (.inr (.inr hm)), e⟩
  by_cases h0 : s / M = 0
  · rw [mtAdder_zero h h0] at hc ⊢
    obtain ⟨i, j, _, _, hc⟩ := mem_grid.1 hc
    rcases cell_mem hc hl with h | ⟨m, hm, _⟩
    · exact .inl (conv1 h)
    · simp at hm
  · rw [mtAdder_pos h h0] at hc ⊢
    rcases List.mem_append.1 hc with hc | hc
    · obtain ⟨i, j, _, _, hc⟩ := mem_grid.1 hc
      rcases cell_mem hc hl with h | ⟨m, hm, e⟩
      · exact .inl (conv1 h)
      · cases hm; right; rw [← e]; exact ⟨k, rfl, Nat.le_refl _, by simp⟩
    · obtain ⟨i, j, _, _, hc⟩ := mem_grid.1 hc
      rcases final_mem hc hl with ⟨m, hm, e⟩ | e
      · simp only [List.mem_append] at hm
        rcases hm with (hm | hm) | hm
        · exact .inl ⟨m, .inl (.inl hm), e⟩
        · exact .inl ⟨m, .inr (.inl (.inl hm)), e⟩
        · exact .inl ⟨m, .inr (.inr (.inl hm)), e⟩
      · right; rw [← e]; exact ⟨k, rfl, Nat.le_refl _, by simp⟩

theorem canU_congr {v w : EV α → Bool} {u : Upper α} {n : Nat} (h : ∀ l, some l ∈ u → v l.var = w l.var) : CanU v u n ↔ CanU w u n := by
  constructor
  · intro hc i l hl; rw [← eval_congr_var (h l (List.mem_of_getElem? hl))]; exact hc i l hl
  · intro hc i l hl; rw [eval_congr_var (h l (List.mem_of_getElem? hl))]; exact hc i l hl

/-! ### the tree -/

/-- clauses relating the inputs `xs` to the outputs of a node -/
structure MTSpec (M K s : Nat) (u : Upper α) (low xs : List (Lit (EV α))) (k k' : Nat) (cs : List (Clause α)) : Prop where
  le : k ≤ k'
  vars : ∀ c ∈ cs, ∀ l ∈ c, (∃ m, (InNode u low m ∨ m ∈ xs) ∧ m.var = l.var) ∨ New k k' l.var
  sound : ∀ w, Sat w cs → Num w M K s u low (cnt w xs)
  complete : ∀ v, CanU v u (cnt v xs / M) → Can v low (cnt v xs % M) → ∃ w, (∀ x, ¬New k k' x → w x = v x) ∧ Sat w cs

theorem mt_leaf (M K k hs : Nat) (x : Lit (EV α)) : MTSpec M K 1 (List.replicate hs none) [x] [x] k k [] where
  le := Nat.le_refl _
  vars := by simp
  sound := fun w _ => ⟨0, cnt w [x], Nat.zero_le _, by simpa using cnt_le w [x], .inl (by omega), fun i l _ h => by omega, (can_single w x).up⟩
  complete := fun v _ _ => ⟨v, fun _ _ => rfl, by simp⟩

/-- the literals of a child before its clauses are built -/
structure ChildOk (M s : Nat) (u : Upper α) (low xs : List (Lit (EV α))) (k k' : Nat) : Prop where
  le : k ≤ k'
  shape : Shape M s u low
  mem : ∀ m, InNode u low m → m ∈ xs ∨ New k k' m.var
  old : ∀ m, InNode u low m → Old k' m
  set : ∀ v : EV α → Bool, ∃ v1, (∀ x, ¬New k k' x → v1 x = v x) ∧ CanU v1 u (cnt v xs / M) ∧ Can v1 low (cnt v xs % M)

theorem mt_combine {M crhs k k0 k1 k2 k3 sL sR : Nat} {upper uL uR : Upper α} {lower lL lR xL xR : List (Lit (EV α))} {cL cR : List (Clause α)}
    (hM : 2 ≤ M) (hMc : M ≤ crhs + 1) (hLR : sL ≤ sR) (hRL : sR ≤ sL + 1) (hO : Shape M (sR + sL) upper lower)
    (hoo : ∀ m, InNode upper lower m → Old k m) (hxL : ∀ l ∈ xL, Old k l) (hxR : ∀ l ∈ xR, Old k l) (lxL : xL.length = sL) (lxR : xR.length = sR)
    (CL : ChildOk M sL uL lL xL k k0) (CR : ChildOk M sR uR lR xR k0 k1)
    (TL : MTSpec M (closeM M crhs) sL uL lL xL (mtAdder M crhs k1 upper lower uR lR uL lL).2 k2 cL) (TR : MTSpec M (closeM M crhs) sR uR lR xR k2 k3 cR) :
    MTSpec M (closeM M crhs) (sL + sR) upper lower (xL ++ xR) k k3 ((mtAdder M crhs k1 upper lower uR lR uL lL).1 ++ cL ++ cR) := by
  generalize hA : mtAdder M crhs k1 upper lower uR lR uL lL = A at *
  have h01 := CL.le
  have h12 := CR.le
  have hA12 : k1 ≤ A.2 := by
    subst hA
    by_cases h0 : (sR + sL) / M = 0
    · rw [mtAdder_zero hO h0]
    · rw [mtAdder_pos hO h0]; simp
  have h23 := TL.le
  have h34 := TR.le
  have hcR : ∀ w, cnt w xR ≤ sR := fun w => lxR ▸ cnt_le w xR
  have hcL : ∀ w, cnt w xL ≤ sL := fun w => lxL ▸ cnt_le w xL
  have nodeL : ∀ m, InNode uL lL m → (∃ m', (InNode upper lower m' ∨ m' ∈ xL ++ xR) ∧ m'.var = m.var) ∨ New k k3 m.var := fun m hm => by
    rcases CL.mem m hm with h | h
    · exact .inl ⟨m, .inr (by simp [h]), rfl⟩
    · exact .inr (h.mono (by omega) (by omega))
  have nodeR : ∀ m, InNode uR lR m → (∃ m', (InNode upper lower m' ∨ m' ∈ xL ++ xR) ∧ m'.var = m.var) ∨ New k k3 m.var := fun m hm => by
    rcases CR.mem m hm with h | h
    · exact .inl ⟨m, .inr (by simp [h]), rfl⟩
    · exact .inr (h.mono (by omega) (by omega))
  refine ⟨by omega, ?_, ?_, ?_⟩
  · intro c hc l hl
    simp only [List.mem_append] at hc
    rcases hc with (hc | hc) | hc
    · have := adder_mem hO (c := c) (crhs := crhs) (k := k1) (lu := uR) (ll := lR) (ru := uL) (rl := lL) (by rw [hA]; exact hc) hl
      rw [hA] at this
      rcases this with ⟨m, hm | hm | hm, e⟩ | h
      · exact .inl ⟨m, .inl hm, e⟩
      · rw [← e]; exact nodeR m hm
      · rw [← e]; exact nodeL m hm
      · exact .inr (h.mono (by omega) (by omega))
    · rcases TL.vars c hc l hl with ⟨m, hm | hm, e⟩ | h
      · rw [← e]; exact nodeL m hm
      · exact .inl ⟨m, .inr (by simp [hm]), e⟩
      · exact .inr (h.mono (by omega) (by omega))
    · rcases TR.vars c hc l hl with ⟨m, hm | hm, e⟩ | h
      · rw [← e]; exact nodeR m hm
      · exact .inl ⟨m, .inr (by simp [hm]), e⟩
      · exact .inr (h.mono (by omega) (by omega))
  · intro w hw
    simp only [sat_append] at hw
    have := adder_num (k := k1) CR.shape CL.shape hO hM hMc (by rw [hA]; exact hw.1.1) (TR.sound w hw.2) (TL.sound w hw.1.2)
    rw [cnt_append, Nat.add_comm (cnt w xL), Nat.add_comm sL]
    exact this
  · intro v hvU hvL
    obtain ⟨v1, hv1, u1, l1⟩ := CL.set v
    obtain ⟨v2, hv2, u2, l2⟩ := CR.set v1
    -- the carry
    let v3 : EV α → Bool := setNew v2 k1 (k1 + 1) (fun _ => decide (M ≤ cnt v xR % M + cnt v xL % M))
    have hv3 : ∀ x, ¬New k1 (k1 + 1) x → v3 x = v2 x := fun x hx => setNew_off hx
    have hv3' : v3 (.aux k1) = decide (M ≤ cnt v xR % M + cnt v xL % M) := by
      have := setNew_on (v := v2) (k := k1) (k' := k1 + 1) (g := fun _ => decide (M ≤ cnt v xR % M + cnt v xL % M)) (i := 0) (by omega)
      simpa using this
    have e1R : cnt v1 xR = cnt v xR := cnt_congr fun l hl => hv1 _ ((hxR l hl).not_new (Nat.le_refl _))
    rw [e1R] at u2 l2
    have off3 : ∀ x, ¬New k (k1 + 1) x → v3 x = v x := fun x hx => by
      rw [hv3 x fun h => hx (h.mono (by omega) (by omega)), hv2 x fun h => hx (h.mono (by omega) (by omega)), hv1 x fun h => hx (h.mono (by omega) (by omega))]
    have uL3 : CanU v3 uL (cnt v xL / M) := (canU_congr fun l hl => by
      have ho := CL.old l (.inl hl)
      rw [hv3 _ (ho.not_new (by omega)), hv2 _ (ho.not_new (by omega))]).2 u1
    have lL3 : Can v3 lL (cnt v xL % M) := (can_congr fun l hl => by
      have ho := CL.old l (.inr hl)
      rw [hv3 _ (ho.not_new (by omega)), hv2 _ (ho.not_new (by omega))]).2 l1
    have uR3 : CanU v3 uR (cnt v xR / M) := (canU_congr fun l hl => by
      have ho := CR.old l (.inl hl)
      rw [hv3 _ (ho.not_new (by omega))]).2 u2
    have lR3 : Can v3 lR (cnt v xR % M) := (can_congr fun l hl => by
      have ho := CR.old l (.inr hl)
      rw [hv3 _ (ho.not_new (by omega))]).2 l2
    have uO3 : CanU v3 upper ((cnt v xR + cnt v xL) / M) := by
      rw [cnt_append, Nat.add_comm] at hvU
      exact (canU_congr fun l hl => off3 _ ((hoo l (.inl hl)).not_new (by omega))).2 hvU
    have lO3 : Can v3 lower ((cnt v xR + cnt v xL) % M) := by
      rw [cnt_append, Nat.add_comm] at hvL
      exact (can_congr fun l hl => off3 _ ((hoo l (.inr hl)).not_new (by omega))).2 hvL
    have sA3 : Sat v3 A.1 := by
      rw [← hA]
      exact adder_can CR.shape CL.shape hO hM hLR hRL (hcR v) (hcL v) uR3 lR3 uL3 lL3 uO3 lO3 hv3'
    -- values of later variables do not matter so far
    have hcnt : ∀ xs : List (Lit (EV α)), (∀ l ∈ xs, Old k l) → cnt v3 xs = cnt v xs := fun xs h => cnt_congr fun l hl => off3 _ ((h l hl).not_new (by omega))
    -- the carry is below A.2 whenever it occurs; use an assignment agreeing with v3 below A.2
    obtain ⟨w1, hw1, sL1⟩ := TL.complete v3 (by rw [hcnt xL hxL]; exact uL3) (by rw [hcnt xL hxL]; exact lL3)
    have w1cnt : cnt w1 xR = cnt v xR := by
      rw [← hcnt xR hxR]; exact cnt_congr fun l hl => hw1 _ ((hxR l hl).not_new (by omega))
    obtain ⟨w2, hw2, sR2⟩ := TR.complete w1
      (by rw [w1cnt]; exact (canU_congr fun l hl => hw1 _ ((CR.old l (.inl hl)).not_new (by omega))).2 uR3)
      (by rw [w1cnt]; exact (can_congr fun l hl => hw1 _ ((CR.old l (.inr hl)).not_new (by omega))).2 lR3)
    have w2v3 : ∀ x, ¬New A.2 k3 x → w2 x = v3 x := fun x hx => by
      rw [hw2 x fun h => hx (h.mono (by omega) (by omega)), hw1 x fun h => hx (h.mono (by omega) (by omega))]
    have sA2 : Sat w2 A.1 := (sat_congr fun c hc l hl => by
      have := adder_mem hO (c := c) (crhs := crhs) (k := k1) (lu := uR) (ll := lR) (ru := uL) (rl := lL) (by rw [hA]; exact hc) hl
      rw [hA] at this
      apply w2v3
      rcases this with ⟨m, hm | hm | hm, e⟩ | ⟨n, e, h1, h2⟩
      · rw [← e]; exact (hoo m hm).not_new (by omega)
      · rw [← e]; exact (CR.old m hm).not_new (by omega)
      · rw [← e]; exact (CL.old m hm).not_new (by omega)
      · rw [e]; rintro ⟨n', e', a', b'⟩; cases e'; omega).2 sA3
    have sL2 : Sat w2 cL := (sat_congr fun c hc l hl => by
      apply hw2
      rcases TL.vars c hc l hl with ⟨m, hm | hm, e⟩ | ⟨n, e, h1, h2⟩
      · rw [← e]; exact (CL.old m hm).not_new (by omega)
      · rw [← e]; exact (hxL m hm).not_new (by omega)
      · rw [e]; rintro ⟨n', e', a', b'⟩; cases e'; omega).2 sL1
    -- where no carry is used, restore the original value
    by_cases h0 : (sR + sL) / M = 0
    · have hA2 : A.2 = k1 := by rw [← hA, mtAdder_zero hO h0]
      by_cases hk3 : k3 = k1
      · -- no new variable after k1: the value of the carry is irrelevant
        refine ⟨setNew w2 k1 (k1 + 1) (fun _ => v (.aux k1)), ?_, ?_⟩
        · intro x hx
          by_cases hn : New k1 (k1 + 1) x
          · obtain ⟨n, rfl, a, b⟩ := hn
            have : n = k1 := by omega
            subst this
            have := setNew_on (v := w2) (k := n) (k' := n + 1) (g := fun _ => v (.aux n)) (i := 0) (by omega)
            simpa using this
          · rw [setNew_off hn, w2v3 x fun h => hn (by rw [hA2, hk3] at h; exact h.mono (Nat.le_refl _) (by omega)), off3 x]
            rintro ⟨n, rfl, a, b⟩
            apply hx
            refine ⟨n, rfl, a, ?_⟩
            by_contra hc
            exact hn ⟨n, rfl, by omega, b⟩
        · have : Sat w2 (A.1 ++ cL ++ cR) := by simp only [sat_append]; exact ⟨⟨sA2, sL2⟩, sR2⟩
          refine (sat_congr fun c hc l hl => setNew_off ?_).2 this
          simp only [List.mem_append] at hc
          have oldk1 : Old k1 l := by
            have fromV : ∀ m : Lit (EV α), Old k1 m → m.var = l.var → Old k1 l := fun m h e n hn => h n (e.trans hn)
            rcases hc with (hc | hc) | hc
            · have := adder_mem hO (c := c) (crhs := crhs) (k := k1) (lu := uR) (ll := lR) (ru := uL) (rl := lL) (by rw [hA]; exact hc) hl
              rw [hA] at this
              rcases this with ⟨m, hm | hm | hm, e⟩ | ⟨n, e, h1, h2⟩
              · exact fromV m ((hoo m hm).mono (by omega)) e
              · exact fromV m (CR.old m hm) e
              · exact fromV m ((CL.old m hm).mono (by omega)) e
              · omega
            · rcases TL.vars c hc l hl with ⟨m, hm | hm, e⟩ | ⟨n, e, h1, h2⟩
              · exact fromV m ((CL.old m hm).mono (by omega)) e
              · exact fromV m ((hxL m hm).mono (by omega)) e
              · omega
            · rcases TR.vars c hc l hl with ⟨m, hm | hm, e⟩ | ⟨n, e, h1, h2⟩
              · exact fromV m (CR.old m hm) e
              · exact fromV m ((hxR m hm).mono (by omega)) e
              · omega
          exact oldk1.not_new (Nat.le_refl _)
      · refine ⟨w2, fun x hx => ?_, by simp only [sat_append]; exact ⟨⟨sA2, sL2⟩, sR2⟩⟩
        rw [w2v3 x fun h => hx (h.mono (by omega) (by omega)), off3 x fun h => hx (h.mono (by omega) (by omega))]
    · have hA2 : A.2 = k1 + 1 := by rw [← hA, mtAdder_pos hO h0]
      refine ⟨w2, fun x hx => ?_, by simp only [sat_append]; exact ⟨⟨sA2, sL2⟩, sR2⟩⟩
      rw [w2v3 x fun h => hx (h.mono (by omega) (by omega)), off3 x fun h => hx (h.mono (by omega) (by omega))]

theorem canU_auxs {w : EV α → Bool} {k n p : Nat} (h : ∀ i, i < n → w (.aux (k + i)) = decide (i < p)) : CanU w ((auxs k n).map some) p := by
  intro i l hl
  rw [List.getElem?_map, Option.map_eq_some_iff] at hl
  obtain ⟨a, ha, e⟩ := hl
  cases e
  exact can_auxs h i _ ha

theorem mtChild_ok {hs M s k : Nat} {ins : List (Lit (EV α))} (hhs : 0 < hs) (hM : 2 ≤ M) (h1 : 1 ≤ s) (hl : s ≤ ins.length) (hins : ∀ l ∈ ins.take s, Old k l) :
    ChildOk M s (mtChild hs M s k ins).1 (mtChild hs M s k ins).2.1 (ins.take s) k (mtChild hs M s k ins).2.2.1 ∧
    (mtChild hs M s k ins).2.2.2 = if s = 1 then ins.drop 1 else ins := by
  unfold mtChild
  by_cases hs1 : s = 1
  · subst hs1
    obtain ⟨x, r, rfl⟩ : ∃ x r, ins = x :: r := by
      match ins, hl with
      | x :: r, _ => exact ⟨x, r, rfl⟩
    simp only [if_true, List.take_succ_cons, List.take_zero, List.drop_succ_cons, List.drop_zero, and_true]
    have hx : Old k x := hins x (by simp)
    refine ⟨Nat.le_refl _, ⟨by simp; omega, ?_, ?_, ?_⟩, ?_, ?_, ?_⟩
    · intro _ o ho; exact (List.mem_replicate.1 ho).2
    · intro h; exact absurd (Nat.div_eq_of_lt (by omega)) h
    · cases hs with
      | zero => omega
      | succ n => simp [List.replicate_succ]
    · rintro m (hm | hm)
      · simp at hm
      · exact .inl hm
    · rintro m (hm | hm)
      · simp at hm
      · simp at hm; subst hm; exact hx
    · intro v
      refine ⟨v, fun _ _ => rfl, ?_, ?_⟩
      · intro i l hl
        have := List.mem_of_getElem? hl
        simp at this
      · have := cnt_le v [x]
        simp at this
        rw [Nat.mod_eq_of_lt (by omega)]
        exact can_single v x
  · simp only [hs1, if_false]
    generalize hlim : (if s / M % M = 0 ∧ s < M - 1 then s else M - 1) = lim
    have hlim' : lim = min s (M - 1) := by
      rw [← hlim]
      split
      · omega
      · next h =>
        by_cases h2 : s < M - 1
        · exact absurd ⟨by rw [Nat.div_eq_of_lt (by omega)]; simp, h2⟩ h
        · omega
    have hmem : ∀ m : Lit (EV α), InNode (if s / M = 0 then [none] else (auxs k (s / M)).map some) (auxs (k + s / M) lim) m → New k (k + s / M + lim) m.var := by
      rintro m (hm | hm)
      · split at hm
        · simp at hm
        · simp at hm
          obtain ⟨i, hi, rfl⟩ := mem_auxs.1 hm
          rw [new_al]; have := Nat.zero_le (s / M); omega
      · obtain ⟨i, hi, rfl⟩ := mem_auxs.1 hm
        rw [new_al]; have := Nat.zero_le (s / M); omega
    refine ⟨⟨Nat.le_trans (Nat.le_add_right _ _) (Nat.le_add_right _ _), ⟨by simp [hlim'], ?_, ?_, ?_⟩, fun m hm => .inr (hmem m hm), ?_, ?_⟩, trivial⟩
    · intro h o ho
      rw [if_pos h] at ho
      simpa using ho
    · intro h
      rw [if_neg h]
      refine ⟨by simp, fun o ho => ?_⟩
      simp at ho
      obtain ⟨a, _, rfl⟩ := ho
      simp
    · split
      · simp
      · next h =>
        intro hc
        have := congrArg List.length hc
        simp at this
        exact h (Nat.div_eq_of_lt (by omega))
    · intro m hm n hn
      obtain ⟨n', e, a, b⟩ := hmem m hm
      rw [e] at hn; cases hn; exact b
    · intro v
      obtain ⟨v1, h1, h2, h3⟩ := set_two v k (s / M) lim (cnt v (ins.take s) / M) (cnt v (ins.take s) % M)
      refine ⟨v1, h1, ?_, h3⟩
      split
      · intro i l hl
        have := List.mem_of_getElem? hl
        simp at this
      · intro i l hl
        rw [List.getElem?_map, Option.map_eq_some_iff] at hl
        obtain ⟨a, ha, e⟩ := hl
        cases e
        exact h2 i _ ha

theorem mtToCNF_ok {M crhs : Nat} (hM : 2 ≤ M) (hMc : M ≤ crhs + 1) : ∀ (s : Nat) (upper : Upper α) (lower : List (Lit (EV α))) (k : Nat) (ins : List (Lit (EV α))), 2 ≤ s →
    Shape M s upper lower → s ≤ ins.length → (∀ m, InNode upper lower m → Old k m) → (∀ l ∈ ins, Old k l) →
    MTSpec M (closeM M crhs) s upper lower (ins.take s) k (mtToCNF M crhs s upper lower k ins).k (mtToCNF M crhs s upper lower k ins).cls ∧
    (mtToCNF M crhs s upper lower k ins).ins = ins.drop s := by
  intro s
  induction s using Nat.strong_induction_on with
  | _ s ih =>
    intro upper lower k ins hs hO hin hoo hoi
    rw [mtToCNF]
    simp only
    obtain ⟨CL, eL⟩ := mtChild_ok (hs := 2) (M := M) (s := s / 2) (k := k) (ins := ins) (by omega) hM (by omega) (by omega) (fun l hl => hoi l (List.mem_of_mem_take hl))
    generalize hL : mtChild 2 M (s / 2) k ins = L at *
    have hle1 := CL.le
    -- the inputs of the right child
    have hts : ins.take s = ins.take (s / 2) ++ (ins.drop (s / 2)).take (s - s / 2) := by
      conv_lhs => rw [show s = s / 2 + (s - s / 2) by omega, List.take_add]
    by_cases hs3 : s / 2 = 1
    · -- the left child is a leaf
      have eL' : L.2.2.2 = ins.drop 1 := by rw [eL, if_pos hs3]
      have hoi' : ∀ l ∈ ins.drop 1, Old L.2.2.1 l := fun l hl => (hoi l (List.mem_of_mem_drop hl)).mono hle1
      obtain ⟨CR, eR⟩ := mtChild_ok (hs := 1) (M := M) (s := s - s / 2) (k := L.2.2.1) (ins := L.2.2.2) (by omega) hM (by omega) (by rw [eL', List.length_drop]; omega)
        (fun l hl => hoi' l (by rw [eL'] at hl; exact List.mem_of_mem_take hl))
      generalize hR : mtChild 1 M (s - s / 2) L.2.2.1 L.2.2.2 = R at *
      have hle2 := CR.le
      rw [eL'] at CR eR
      rw [dif_neg (show ¬(s / 2 > 1) by omega)]
      have hLfull := hL
      unfold mtChild at hLfull
      rw [if_pos hs3] at hLfull
      have TLf : ∀ kk, MTSpec M (closeM M crhs) (s / 2) L.1 L.2.1 (ins.take (s / 2)) kk kk [] := fun kk => by
        obtain ⟨x, r, rfl⟩ : ∃ x r, ins = x :: r := by
          match ins, hin with
          | [], h => simp only [List.length_nil] at h; omega
          | x :: r, _ => exact ⟨x, r, rfl⟩
        rw [← hLfull, hs3]
        exact mt_leaf M _ kk 2 x
      generalize hA : mtAdder M crhs R.2.2.1 upper lower R.1 R.2.1 L.1 L.2.1 = A at *
      have hA12 : R.2.2.1 ≤ A.2 := by
        subst hA
        by_cases h0 : s / M = 0
        · rw [mtAdder_zero hO h0]
        · rw [mtAdder_pos hO h0]; simp
      by_cases hs2 : s - s / 2 = 1
      · rw [dif_neg (show ¬(s - s / 2 > 1 ∧ s - s / 2 < s) by omega)]
        have hRfull := hR
        unfold mtChild at hRfull
        rw [if_pos hs2, eL'] at hRfull
        have TRf : ∀ kk, MTSpec M (closeM M crhs) (s - s / 2) R.1 R.2.1 ((ins.drop 1).take (s - s / 2)) kk kk [] := fun kk => by
          obtain ⟨x, y, r, rfl⟩ : ∃ x y r, ins = x :: y :: r := by
            match ins, hin with
            | [], h => simp only [List.length_nil] at h; omega
            | [x], h => simp only [List.length_cons, List.length_nil] at h; omega
            | x :: y :: r, _ => exact ⟨x, y, r, rfl⟩
          rw [← hRfull, hs2]
          exact mt_leaf M _ kk 1 y
        have := mt_combine (sL := s / 2) (sR := s - s / 2) (k3 := A.2) hM hMc (by omega) (by omega) (by rw [show s - s / 2 + s / 2 = s by omega]; exact hO) hoo
          (fun l hl => hoi l (List.mem_of_mem_take hl)) (fun l hl => hoi l (List.mem_of_mem_drop (List.mem_of_mem_take hl)))
          (by rw [List.length_take]; omega) (by rw [List.length_take, List.length_drop]; omega) CL CR (by rw [hA]; exact TLf A.2) (TRf A.2)
        rw [show s / 2 + (s - s / 2) = s by omega, hA] at this
        rw [hts, hs3]
        rw [hs3] at this
        refine ⟨this, ?_⟩
        have h2 : s = 2 := by omega
        rw [eR, if_pos hs2, List.drop_drop, h2]
      · rw [dif_pos (show s - s / 2 > 1 ∧ s - s / 2 < s by omega)]
        rw [if_neg hs2] at eR
        have hRM : ∀ m, InNode R.1 R.2.1 m → Old A.2 m := fun m hm => (CR.old m hm).mono hA12
        obtain ⟨TR, e2⟩ := ih (s - s / 2) (by omega) R.1 R.2.1 A.2 R.2.2.2 (by omega) CR.shape (by rw [eR, List.length_drop]; omega) hRM
          (fun l hl => by rw [eR] at hl; exact (hoi' l hl).mono (by omega))
        rw [eR] at TR e2 ⊢
        have := mt_combine (sL := s / 2) (sR := s - s / 2) hM hMc (by omega) (by omega) (by rw [show s - s / 2 + s / 2 = s by omega]; exact hO) hoo
          (fun l hl => hoi l (List.mem_of_mem_take hl)) (fun l hl => hoi l (List.mem_of_mem_drop (List.mem_of_mem_take hl)))
          (by rw [List.length_take]; omega) (by rw [List.length_take, List.length_drop]; omega) CL CR (by rw [hA]; exact TLf A.2) TR
        rw [hA] at this
        rw [hts]
        rw [show MTSpec M (closeM M crhs) s = MTSpec M (closeM M crhs) (s / 2 + (s - s / 2)) by congr 1; omega]
        refine ⟨?_, ?_⟩
        · rw [hs3] at this ⊢; exact this
        · simp only; rw [e2, List.drop_drop]
          congr 1; omega
    · -- both children are inner nodes
      have eL' : L.2.2.2 = ins := by rw [eL, if_neg hs3]
      -- the right child takes the inputs after those of the left one
      have hRC : ∀ xs : List (Lit (EV α)), mtChild 1 M (s - s / 2) L.2.2.1 xs = ((mtChild 1 M (s - s / 2) L.2.2.1 (ins.drop (s / 2))).1,
          (mtChild 1 M (s - s / 2) L.2.2.1 (ins.drop (s / 2))).2.1, (mtChild 1 M (s - s / 2) L.2.2.1 (ins.drop (s / 2))).2.2.1, xs) := fun xs => by
        unfold mtChild
        rw [if_neg (by omega), if_neg (by omega)]
      obtain ⟨CR, -⟩ := mtChild_ok (hs := 1) (M := M) (s := s - s / 2) (k := L.2.2.1) (ins := ins.drop (s / 2)) (by omega) hM (by omega) (by rw [List.length_drop]; omega)
        (fun l hl => (hoi l (List.mem_of_mem_drop (List.mem_of_mem_take hl))).mono hle1)
      rw [hRC L.2.2.2, eL']
      generalize hR : mtChild 1 M (s - s / 2) L.2.2.1 (ins.drop (s / 2)) = R at *
      have hle2 := CR.le
      simp only
      generalize hA : mtAdder M crhs R.2.2.1 upper lower R.1 R.2.1 L.1 L.2.1 = A at *
      have hA12 : R.2.2.1 ≤ A.2 := by
        subst hA
        by_cases h0 : s / M = 0
        · rw [mtAdder_zero hO h0]
        · rw [mtAdder_pos hO h0]; simp
      rw [dif_pos (show s / 2 > 1 by omega)]
      obtain ⟨TL, e1⟩ := ih (s / 2) (by omega) L.1 L.2.1 A.2 ins (by omega) CL.shape (by omega) (fun m hm => (CL.old m hm).mono (by omega)) (fun l hl => (hoi l hl).mono (by omega))
      generalize hR1 : mtToCNF M crhs (s / 2) L.1 L.2.1 A.2 ins = R1 at *
      have hle3 := TL.le
      rw [dif_pos (show s - s / 2 > 1 ∧ s - s / 2 < s by omega)]
      obtain ⟨TR, e2⟩ := ih (s - s / 2) (by omega) R.1 R.2.1 R1.k R1.ins (by omega) CR.shape (by rw [e1, List.length_drop]; omega) (fun m hm => (CR.old m hm).mono (by omega))
        (fun l hl => by rw [e1] at hl; exact (hoi l (List.mem_of_mem_drop hl)).mono (by omega))
      rw [e1] at TR e2 ⊢
      have := mt_combine (sL := s / 2) (sR := s - s / 2) hM hMc (by omega) (by omega) (by rw [show s - s / 2 + s / 2 = s by omega]; exact hO) hoo
        (fun l hl => hoi l (List.mem_of_mem_take hl)) (fun l hl => hoi l (List.mem_of_mem_drop (List.mem_of_mem_take hl)))
        (by rw [List.length_take]; omega) (by rw [List.length_take, List.length_drop]; omega) CL CR (by rw [hA]; exact TL) TR
      rw [hA] at this
      rw [hts]
      rw [show MTSpec M (closeM M crhs) s = MTSpec M (closeM M crhs) (s / 2 + (s - s / 2)) by congr 1; omega]
      refine ⟨this, ?_⟩
      rw [e2, List.drop_drop]
      congr 1; omega

end Verif.Enc
