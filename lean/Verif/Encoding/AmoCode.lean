import Verif.Encoding.AmoRec
import Mathlib.Data.Nat.Bitwise
/-! # Binary and bimander encodings: gray codes -/
set_option linter.unusedSectionVars false
namespace Verif.Enc
open Verif
variable {α : Type}

theorem gray_bit (i j : Nat) : (gray i).testBit j = (i.testBit j ^^ i.testBit (j + 1)) := by
  simp [gray, Nat.testBit_xor, Nat.testBit_shiftRight, Nat.add_comm]

theorem gray_half (i : Nat) (j : Nat) : (gray i).testBit (j + 1) = (gray (i / 2)).testBit j := by
  rw [gray_bit, gray_bit, Nat.testBit_add_one, Nat.testBit_add_one]

theorem gray_inj : ∀ (i i' : Nat), (∀ j, (gray i).testBit j = (gray i').testBit j) → i = i' := by
  intro i
  induction i using Nat.strong_induction_on with
  | _ i ih =>
    intro i' h
    by_cases hi : i = 0
    · subst hi
      -- all bits of the other number are equal, the high ones are zero
      have hb : ∀ j, i'.testBit j = i'.testBit (j + 1) := by
        intro j
        have := h j
        simp only [gray_bit, Nat.zero_testBit] at this
        cases h1 : i'.testBit j <;> cases h2 : i'.testBit (j + 1) <;> simp_all
      have hall : ∀ j, i'.testBit j = i'.testBit 0 := by
        intro j
        induction j with
        | zero => rfl
        | succ j ih => rw [← hb j, ih]
      have hz : i'.testBit i' = false := Nat.testBit_eq_false_of_lt Nat.lt_two_pow_self
      have h0 : i'.testBit 0 = false := by rw [← hall i']; exact hz
      apply Nat.eq_of_testBit_eq
      intro j
      rw [hall j, h0]; simp
    · have h2 : i / 2 = i' / 2 := ih (i / 2) (by omega) (i' / 2) fun j => by rw [← gray_half, ← gray_half]; exact h (j + 1)
      have h0 := h 0
      simp only [gray_bit, Nat.zero_add] at h0
      rw [show (1 : Nat) = 0 + 1 from rfl, Nat.testBit_add_one, Nat.testBit_add_one, h2] at h0
      have : i.testBit 0 = i'.testBit 0 := by
        cases h1 : i.testBit 0 <;> cases h3 : i'.testBit 0 <;> cases h4 : (i' / 2).testBit 0 <;> simp_all
      simp only [Nat.testBit_zero] at this
      have : i % 2 = 1 ↔ i' % 2 = 1 := by simpa using this
      omega

theorem gray_differ {i i' b : Nat} (hne : i ≠ i') (hi : i < 2 ^ b) (hi' : i' < 2 ^ b) : ∃ j, j < b ∧ (gray i).testBit j ≠ (gray i').testBit j := by
  by_contra hc
  apply hne
  apply gray_inj
  intro j
  by_cases hj : j < b
  · by_contra hd
    exact hc ⟨j, hj, hd⟩
  · have : ∀ x, x < 2 ^ b → (gray x).testBit j = false := by
      intro x hx
      have h1 : x < 2 ^ j := Nat.lt_of_lt_of_le hx (Nat.pow_le_pow_right (by omega) (by omega))
      have h2 : x < 2 ^ (j + 1) := Nat.lt_of_lt_of_le h1 (Nat.pow_le_pow_right (by omega) (by omega))
      rw [gray_bit, Nat.testBit_eq_false_of_lt h1, Nat.testBit_eq_false_of_lt h2]; rfl
    rw [this i hi, this i' hi']

/-- in the first loop exactly the lowest bit is dropped -/
theorem code_first {k idx : Nat} (h : idx < k / 2) (j : Nat) : code k idx (j + 1) = some ((gray idx).testBit j) := by
  unfold code
  rw [if_pos h]
  have e1 : (gray (2 * idx)).testBit (j + 1) = (gray idx).testBit j := by rw [gray_half]; congr 2; omega
  have e2 : (gray (2 * idx + 1)).testBit (j + 1) = (gray idx).testBit j := by rw [gray_half]; congr 2; omega
  rw [e1, e2, if_pos rfl]

theorem code_second {k idx : Nat} (h : ¬idx < k / 2) (j : Nat) : code k idx j = some ((gray (k + (idx - k / 2))).testBit j) := by
  unfold code; rw [if_neg h]

/-- two different groups get contradictory codes -/
theorem code_conflict {b n a c : Nat} (hn : n ≤ 2 ^ b) (hb : 2 ^ b ≤ 2 * n) (ha : a < n) (hc : c < n) (hne : a ≠ c) :
    ∃ j, j < b ∧ ∃ x, code ((2 ^ b - n) * 2) a j = some x ∧ code ((2 ^ b - n) * 2) c j = some (!x) := by
  generalize hk : (2 ^ b - n) * 2 = k
  have hk2 : k / 2 = 2 ^ b - n := by omega
  have hwlog : ∀ a c, a < n → c < n → a < c → ∃ j, j < b ∧ ∃ x, code k a j = some x ∧ code k c j = some (!x) := by
    intro a c ha hc hac
    by_cases h1 : a < k / 2
    · -- bits from the second one on
      obtain ⟨b', hb'⟩ : ∃ b', b = b' + 1 := by
        refine ⟨b - 1, ?_⟩
        rcases Nat.eq_zero_or_pos b with rfl | h
        · simp at hn hb hk2; omega
        · omega
      have hpow : 2 ^ b = 2 * 2 ^ b' := by rw [hb', Nat.pow_succ]; omega
      have hbits : ∀ {u u' : Nat}, u ≠ u' → u < 2 ^ b' → u' < 2 ^ b' → ∃ j, j < b' ∧ (gray u').testBit j = !(gray u).testBit j := by
        intro u u' hne hu hu'
        obtain ⟨j, hj, hd⟩ := gray_differ hne hu hu'
        refine ⟨j, hj, ?_⟩
        cases h1 : (gray u).testBit j <;> cases h2 : (gray u').testBit j <;> simp_all
      by_cases h2 : c < k / 2
      · obtain ⟨j, hj, hd⟩ := hbits (u := a) (u' := c) (by omega) (by omega) (by omega)
        exact ⟨j + 1, by omega, _, code_first h1 j, by rw [code_first h2, hd]⟩
      · obtain ⟨j, hj, hd⟩ := hbits (u := a) (u' := (k + (c - k / 2)) / 2) (by omega) (by omega) (by omega)
        exact ⟨j + 1, by omega, _, code_first h1 j, by rw [code_second h2, gray_half, hd]⟩
    · have h2 : ¬c < k / 2 := by omega
      obtain ⟨j, hj, hd⟩ := gray_differ (i := k + (a - k / 2)) (i' := k + (c - k / 2)) (b := b) (by omega) (by omega) (by omega)
      refine ⟨j, hj, _, code_second h1 j, ?_⟩
      rw [code_second h2]
      cases h3 : (gray (k + (a - k / 2))).testBit j <;> cases h4 : (gray (k + (c - k / 2))).testBit j <;> simp_all
  rcases Nat.lt_or_gt_of_ne hne with h | h
  · exact hwlog a c ha hc h
  · obtain ⟨j, hj, x, h1, h2⟩ := hwlog c a hc ha h
    exact ⟨j, hj, !x, h2, by simpa using h1⟩

theorem sat_codeClauses {w : EV α → Bool} {k0 j : Nat} {g : List (Lit (EV α))} {c : Option Bool} : Sat w (codeClauses k0 g j c) ↔
    ∀ x, c = some x → 0 < cnt w g → w (.aux (k0 + j)) = x := by
  rw [cnt_pos]
  cases c with
  | none => simp [codeClauses]
  | some x =>
    cases x <;>
    · simp only [codeClauses, sat_map, List.mem_cons, List.not_mem_nil, or_false, exists_eq_or_imp, exists_eq_left, Lit.eval_neg, al_eval]
      constructor
      · rintro h x ⟨⟩ ⟨l, hl, e⟩
        have := h l hl
        simpa [e] using this
      · intro h l hl
        cases e : l.eval w
        · simp
        · have := h _ rfl ⟨l, hl, e⟩
          simp [this]

theorem sat_codes {w : EV α → Bool} {k0 b k : Nat} {groups : List (List (Lit (EV α)))} : Sat w (codes k0 b k groups) ↔
    ∀ i (hi : i < groups.length), 0 < cnt w groups[i] → ∀ j, j < b → ∀ x, code k i j = some x → w (.aux (k0 + j)) = x := by
  unfold codes
  simp only [sat_flatMap, List.mem_range, sat_codeClauses]
  constructor
  · intro h i hi hp j hj x hx
    exact h i hi j hj x hx (by rw [getD_lt _ hi]; exact hp)
  · intro h i hi j hj x hx hp
    rw [getD_lt _ hi] at hp
    exact h i hi hp j hj x hx

theorem codes_vars {k0 b k : Nat} {groups : List (List (Lit (EV α)))} : ∀ c ∈ codes k0 b k groups, ∀ l ∈ c,
    (∃ m ∈ groups.flatten, m.var = l.var) ∨ New k0 (k0 + b) l.var := by
  intro c hc l hl
  simp only [codes, List.mem_flatMap, List.mem_range] at hc
  obtain ⟨i, hi, j, hj, hc⟩ := hc
  rw [getD_lt _ hi] at hc
  cases hcode : code k i j with
  | none => simp [codeClauses, hcode] at hc
  | some x =>
    cases x <;>
    · simp only [codeClauses, hcode, List.mem_map] at hc
      obtain ⟨m, hm, rfl⟩ := hc
      simp only [List.mem_cons, List.not_mem_nil, or_false] at hl
      rcases hl with rfl | rfl
      · exact .inl ⟨m, List.mem_flatten.2 ⟨_, List.getElem_mem hi, hm⟩, rfl⟩
      · right; first | rw [neg_var, new_al] | rw [new_al]
        omega

/-- groups with at most one true literal each, and contradictory codes for different groups -/
theorem codes_exact {k0 b : Nat} {groups : List (List (Lit (EV α)))} (hn : groups.length ≤ 2 ^ b) (hb : 2 ^ b ≤ 2 * groups.length)
    (ho : ∀ l ∈ groups.flatten, Old k0 l) :
    Exact k0 (k0 + b) groups.flatten (groups.flatMap pure ++ codes k0 b ((2 ^ b - groups.length) * 2) groups) (fun v => cnt v groups.flatten ≤ 1) where
  le := by omega
  vars := by
    intro c hc l hl
    rcases List.mem_append.1 hc with hc | hc
    · obtain ⟨g, hg, hc⟩ := List.mem_flatMap.1 hc
      obtain ⟨m, hm, e⟩ := pure_vars c hc l hl
      exact .inl ⟨m, List.mem_flatten.2 ⟨g, hg, hm⟩, e⟩
    · exact codes_vars c hc l hl
  sound := by
    intro w hw
    rw [sat_append, sat_flatMap, sat_codes] at hw
    rw [cnt_flatten_le]
    refine ⟨fun g hg => sat_pure.1 (hw.1 g hg), fun i j hi hj ei ej => ?_⟩
    by_contra hne
    obtain ⟨m, hm, x, h1, h2⟩ := code_conflict hn hb hi hj hne
    have a := hw.2 i hi ei m hm _ h1
    have b := hw.2 j hj ej m hm _ h2
    rw [a] at b
    cases x <;> simp at b
  complete := by
    intro v hv
    rw [cnt_flatten_le] at hv
    obtain ⟨t, ht⟩ : ∃ t, ∀ i (hi : i < groups.length), 0 < cnt v groups[i] → i = t := by
      by_cases hex : ∃ t, ∃ (ht : t < groups.length), 0 < cnt v groups[t]
      · obtain ⟨t, ht, e⟩ := hex
        exact ⟨t, fun a ha ea => hv.2 a t ha ht ea e⟩
      · exact ⟨0, fun a ha ea => absurd ⟨a, ha, ea⟩ hex⟩
    refine ⟨setNew v k0 (k0 + b) (fun j => (code ((2 ^ b - groups.length) * 2) t j).getD false), fun x hx => setNew_off hx, ?_⟩
    generalize hw : setNew v k0 (k0 + b) (fun j => (code ((2 ^ b - groups.length) * 2) t j).getD false) = w
    have hc : ∀ g ∈ groups, cnt w g = cnt v g := fun g hg => cnt_congr fun l hl => by
      rw [← hw]; exact setNew_off ((ho l (List.mem_flatten.2 ⟨g, hg, hl⟩)).not_new (Nat.le_refl _))
    rw [sat_append, sat_flatMap, sat_codes]
    refine ⟨fun g hg => sat_pure.2 (by rw [hc g hg]; exact hv.1 g hg), fun i hi hp j hj x hx => ?_⟩
    rw [hc _ (List.getElem_mem hi)] at hp
    rw [ht i hi hp] at hx
    rw [← hw, setNew_on (by omega), hx]; rfl

theorem clog_bounds {n : Nat} (h : 0 < n) : n ≤ 2 ^ Nat.clog 2 n ∧ 2 ^ Nat.clog 2 n ≤ 2 * n := by
  refine ⟨Nat.le_pow_clog (by omega) n, ?_⟩
  rcases Nat.eq_zero_or_pos (Nat.clog 2 n) with h0 | h0
  · rw [h0]; simp; omega
  · have h1 : 1 < n := by
      by_contra hc
      have : n = 1 := by omega
      subst this
      simp at h0
    have := Nat.pow_pred_clog_lt_self (b := 2) (by omega) h1
    obtain ⟨m, hm⟩ : ∃ m, Nat.clog 2 n = m + 1 := ⟨Nat.clog 2 n - 1, by omega⟩
    rw [hm] at this ⊢
    simp only [Nat.pred_succ] at this
    rw [Nat.pow_succ]; omega

theorem flatten_singles (ls : List (Lit (EV α))) : (ls.map (fun x => [x])).flatten = ls := by
  induction ls with
  | nil => rfl
  | cons x xs ih => simp [ih]

theorem binary_exact {k : Nat} {ls : List (Lit (EV α))} (hn : 0 < ls.length) (ho : ∀ l ∈ ls, Old k l) :
    Exact k (binary k ls).2 ls (binary k ls).1 (fun v => cnt v ls ≤ 1) := by
  have hb := clog_bounds hn
  have E := codes_exact (k0 := k) (b := Nat.clog 2 ls.length) (groups := ls.map (fun x => [x])) (by simpa using hb.1) (by simpa using hb.2)
    (by rw [flatten_singles]; exact ho)
  rw [flatten_singles] at E
  have hp : (ls.map (fun x => [x])).flatMap pure = [] := by
    rw [List.flatMap_map, List.flatMap_eq_nil_iff]
    intro x _
    simp [pure]
  rw [hp, List.nil_append, List.length_map] at E
  exact E

theorem splitGroups_length : ∀ (m : Nat) (ls : List (Lit (EV α))), (splitGroups m ls).length = m := by
  intro m
  induction m with
  | zero => intro ls; rfl
  | succ m ih => intro ls; simp [splitGroups, ih]
theorem splitGroups_flatten : ∀ (m : Nat) (ls : List (Lit (EV α))), 0 < m ∨ ls = [] → (splitGroups m ls).flatten = ls := by
  intro m
  induction m with
  | zero => intro ls h; simp at h; simp [splitGroups, h]
  | succ m ih =>
    intro ls _
    simp only [splitGroups, List.flatten_cons]
    rw [ih]
    · exact List.take_append_drop _ _
    · rcases Nat.eq_zero_or_pos m with rfl | h
      · right
        apply List.drop_eq_nil_of_le
        simp [ceilDiv]
      · exact .inl h

theorem bimander_exact {gs k : Nat} {ls : List (Lit (EV α))} (hg : 0 < gs) (ho : ∀ l ∈ ls, Old k l) :
    Exact k (bimander gs k ls).2 ls (bimander gs k ls).1 (fun v => cnt v ls ≤ 1) := by
  have hb := clog_bounds hg
  have E := codes_exact (k0 := k) (b := Nat.clog 2 gs) (groups := splitGroups gs ls) (by rw [splitGroups_length]; exact hb.1)
    (by rw [splitGroups_length]; exact hb.2) (by rw [splitGroups_flatten _ _ (.inl hg)]; exact ho)
  rw [splitGroups_flatten _ _ (.inl hg), splitGroups_length] at E
  exact E

end Verif.Enc
