import Verif.Encoding.Amo
/-! # Lemmas about the at-most-one encodings -/
set_option linter.unusedSectionVars false
namespace Verif.Enc
open Verif
variable {α : Type}

/-! ### counting -/

theorem amo_iff {v : EV α → Bool} {ls : List (Lit (EV α))} :
    cnt v ls ≤ 1 ↔ ∀ i j (hi : i < ls.length) (hj : j < ls.length), ls[i].eval v = true → ls[j].eval v = true → i = j := by
  induction ls with
  | nil => simp
  | cons l ls ih =>
    rw [cnt_cons]
    constructor
    · intro h i j hi hj ei ej
      by_cases hl : l.eval v = true
      · simp only [hl, if_true] at h
        have h0 : cnt v ls = 0 := by omega
        rw [cnt_zero] at h0
        cases i with
        | zero =>
          cases j with
          | zero => rfl
          | succ j => simp only [List.getElem_cons_succ] at ej; rw [h0 _ (List.getElem_mem _)] at ej; simp at ej
        | succ i => simp only [List.getElem_cons_succ] at ei; rw [h0 _ (List.getElem_mem _)] at ei; simp at ei
      · simp only [hl] at h
        cases i with
        | zero => simp at ei; exact absurd ei hl
        | succ i =>
          cases j with
          | zero => simp at ej; exact absurd ej hl
          | succ j =>
            have := (ih.1 (by simpa using h)) i j (by simpa using hi) (by simpa using hj) (by simpa using ei) (by simpa using ej)
            omega
    · intro h
      have h1 : cnt v ls ≤ 1 := ih.2 fun i j hi hj ei ej => by
        have := h (i + 1) (j + 1) (by simpa using hi) (by simpa using hj) (by simpa using ei) (by simpa using ej)
        omega
      by_cases hl : l.eval v = true
      · have : cnt v ls = 0 := by
          rw [cnt_zero]
          intro m hm
          obtain ⟨j, hj, rfl⟩ := List.getElem_of_mem hm
          by_contra hc
          have := h 0 (j + 1) (by simp) (by simpa using hj) (by simpa using hl) (by simpa using hc)
          omega
        simp [hl, this]
      · simp [hl, h1]

theorem cnt_flatten_le {v : EV α → Bool} {gs : List (List (Lit (EV α)))} :
    cnt v gs.flatten ≤ 1 ↔ (∀ g ∈ gs, cnt v g ≤ 1) ∧
      ∀ i j (hi : i < gs.length) (hj : j < gs.length), 0 < cnt v gs[i] → 0 < cnt v gs[j] → i = j := by
  induction gs with
  | nil => simp
  | cons g gs ih =>
    rw [List.flatten_cons, cnt_append]
    have hz : cnt v gs.flatten = 0 ↔ ∀ g ∈ gs, cnt v g = 0 := by
      simp only [cnt_zero, List.mem_flatten]
      exact ⟨fun h g hg l hl => h l ⟨g, hg, hl⟩, fun h l ⟨g, hg, hl⟩ => h g hg l hl⟩
    constructor
    · intro h
      obtain ⟨h1, h2⟩ := ih.1 (by omega)
      refine ⟨?_, ?_⟩
      · intro g' hg'
        rcases List.mem_cons.1 hg' with rfl | hg'
        · omega
        · exact h1 g' hg'
      · intro i j hi hj ei ej
        cases i with
        | zero =>
          simp at ei
          have h0 := hz.1 (by omega)
          cases j with
          | zero => rfl
          | succ j => simp only [List.getElem_cons_succ] at ej; rw [h0 _ (List.getElem_mem _)] at ej; omega
        | succ i =>
          cases j with
          | zero =>
            simp at ej
            have h0 := hz.1 (by omega)
            simp only [List.getElem_cons_succ] at ei; rw [h0 _ (List.getElem_mem _)] at ei; omega
          | succ j =>
            have := h2 i j (by simpa using hi) (by simpa using hj) (by simpa using ei) (by simpa using ej)
            omega
    · rintro ⟨h1, h2⟩
      have hg := h1 g List.mem_cons_self
      have hr : cnt v gs.flatten ≤ 1 := ih.2 ⟨fun g' hg' => h1 g' (List.mem_cons_of_mem _ hg'), fun i j hi hj ei ej => by
        have := h2 (i + 1) (j + 1) (by simpa using hi) (by simpa using hj) (by simpa using ei) (by simpa using ej)
        omega⟩
      by_cases h0 : 0 < cnt v g
      · have : cnt v gs.flatten = 0 := by
          rw [hz]
          intro g' hg'
          obtain ⟨j, hj, rfl⟩ := List.getElem_of_mem hg'
          by_contra hc
          have := h2 0 (j + 1) (by simp) (by simpa using hj) (by simpa using h0) (by simp; omega)
          omega
        omega
      · omega

theorem auxs_succ (k n : Nat) : (auxs k (n + 1) : List (Lit (EV α))) = al k :: auxs (k + 1) n := by
  simp only [auxs, List.range_succ_eq_map, List.map_cons, List.map_map]
  congr 1
  apply List.map_congr_left
  intro i _
  simp only [Function.comp]
  congr 1; omega

/-! ### composing encodings -/

theorem Exact.keep {k k' : Nat} {ls : List (Lit (EV α))} {cs : List (Clause α)} {C : (EV α → Bool) → Prop} (h : Exact k k' ls cs C)
    {j j' : Nat} (hj : k' ≤ j) (ho : ∀ l ∈ ls, Old j l) {w w' : EV α → Bool} (hw : ∀ x, ¬New j j' x → w' x = w x) : Sat w' cs ↔ Sat w cs := by
  apply sat_congr
  intro c hc l hl
  rcases h.vars c hc l hl with ⟨m, hm, e⟩ | ⟨n, e, a, b⟩
  · exact hw _ (by rw [← e]; exact (ho m hm).not_new (Nat.le_refl _))
  · exact hw _ (by rw [e]; rintro ⟨n', e', a', b'⟩; cases e'; omega)

theorem Exact.congr {k k' : Nat} {ls ls' : List (Lit (EV α))} {cs : List (Clause α)} {C C' : (EV α → Bool) → Prop} (h : Exact k k' ls cs C)
    (hls : ∀ l ∈ ls, ∃ m ∈ ls', m.var = l.var) (hC : ∀ v, C v ↔ C' v) : Exact k k' ls' cs C' where
  le := h.le
  vars := by
    intro c hc l hl
    rcases h.vars c hc l hl with ⟨m, hm, e⟩ | h
    · obtain ⟨m', hm', e'⟩ := hls m hm
      exact .inl ⟨m', hm', e'.trans e⟩
    · exact .inr h
  sound := fun w hw => (hC w).1 (h.sound w hw)
  complete := fun v hv => h.complete v ((hC v).2 hv)

/-- no auxiliary variable is needed -/
theorem Exact.direct {k : Nat} {ls : List (Lit (EV α))} {cs : List (Clause α)} {C : (EV α → Bool) → Prop}
    (hv : ∀ c ∈ cs, ∀ l ∈ c, ∃ m ∈ ls, m.var = l.var) (h : ∀ v, Sat v cs ↔ C v) : Exact k k ls cs C where
  le := Nat.le_refl _
  vars := fun c hc l hl => .inl (hv c hc l hl)
  sound := fun w => (h w).1
  complete := fun v hv => ⟨v, fun _ _ => rfl, (h v).2 hv⟩

/-! ### amoPure -/

theorem sat_pure {v : EV α → Bool} {ls : List (Lit (EV α))} : Sat v (pure ls) ↔ cnt v ls ≤ 1 := by
  induction ls with
  | nil => simp [pure]
  | cons l ls ih =>
    rw [pure, sat_append, ih, sat_map, cnt_cons]
    constructor
    · rintro ⟨h1, h2⟩
      by_cases hl : l.eval v = true
      · have : cnt v ls = 0 := cnt_zero.2 fun m hm => by
          obtain ⟨x, hx, e⟩ := h1 m hm
          simp only [List.mem_cons, List.not_mem_nil, or_false] at hx
          rcases hx with rfl | rfl
          · rw [Lit.eval_neg, hl] at e; simp at e
          · rw [Lit.eval_neg] at e; simpa using e
        simp [this, hl]
      · simp [hl, h2]
    · intro h
      refine ⟨fun m hm => ?_, by omega⟩
      by_cases hl : l.eval v = true
      · have : cnt v ls = 0 := by simp [hl] at h; omega
        exact ⟨m.neg, by simp, by rw [Lit.eval_neg, cnt_zero.1 this m hm]; rfl⟩
      · exact ⟨l.neg, by simp, by rw [Lit.eval_neg]; simpa using hl⟩

theorem pure_vars {ls : List (Lit (EV α))} : ∀ c ∈ pure ls, ∀ l ∈ c, ∃ m ∈ ls, m.var = l.var := by
  induction ls with
  | nil => simp [pure]
  | cons x ls ih =>
    intro c hc l hl
    rw [pure, List.mem_append] at hc
    rcases hc with hc | hc
    · obtain ⟨m, hm, rfl⟩ := List.mem_map.1 hc
      simp only [List.mem_cons, List.not_mem_nil, or_false] at hl
      rcases hl with rfl | rfl
      · exact ⟨x, List.mem_cons_self, rfl⟩
      · exact ⟨m, List.mem_cons_of_mem _ hm, rfl⟩
    · obtain ⟨m, hm, e⟩ := ih c hc l hl
      exact ⟨m, List.mem_cons_of_mem _ hm, e⟩

theorem pure_exact (k : Nat) (ls : List (Lit (EV α))) : Exact k k ls (pure ls) (fun v => cnt v ls ≤ 1) :=
  .direct pure_vars fun _ => sat_pure

/-! ### amoLadder -/

theorem ladderFrom_sound {k : Nat} {w : EV α → Bool} : ∀ (xs : List (Lit (EV α))) (i : Nat), Sat w (ladderFrom k (i + 1) xs) →
    cnt w xs ≤ 1 ∧ (w (.aux (k + i)) = true → cnt w xs = 0) := by
  intro xs
  induction xs with
  | nil => intro i _; simp
  | cons x xs ih =>
    intro i h
    cases xs with
    | nil =>
      simp only [ladderFrom, sat_cons, List.mem_cons, List.not_mem_nil, or_false, exists_eq_or_imp, exists_eq_left, Lit.eval_neg, al_eval] at h
      rw [cnt_cons]
      cases hx : x.eval w <;> cases hs : w (.aux (k + i)) <;> simp_all
    | cons y ys =>
      rw [ladderFrom] at h
      · simp only [sat_append, sat_cons, List.mem_cons, List.not_mem_nil, or_false, exists_eq_or_imp, exists_eq_left, Lit.eval_neg, al_eval] at h
        obtain ⟨⟨a, b, c, -⟩, h⟩ := h
        obtain ⟨h1, h2⟩ := ih (i + 1) h
        rw [cnt_cons]
        cases hx : x.eval w <;> cases hs : w (.aux (k + i)) <;> simp_all
      · simp

theorem ladder_sound {k : Nat} {w : EV α → Bool} {xs : List (Lit (EV α))} (h : Sat w (ladderFrom k 0 xs)) : cnt w xs ≤ 1 := by
  cases xs with
  | nil => simp
  | cons x xs =>
    simp only [ladderFrom, sat_cons, List.mem_cons, List.not_mem_nil, or_false, exists_eq_or_imp, exists_eq_left, Lit.eval_neg, al_eval] at h
    obtain ⟨a, h⟩ := h
    obtain ⟨h1, h2⟩ := ladderFrom_sound xs 0 h
    rw [cnt_cons]
    cases hx : x.eval w <;> simp_all

theorem ladderFrom_complete {k : Nat} {w : EV α → Bool} : ∀ (xs pre : List (Lit (EV α))), pre ≠ [] → cnt w (pre ++ xs) ≤ 1 →
    (∀ j, j + 1 < (pre ++ xs).length → w (.aux (k + j)) = decide (0 < cnt w ((pre ++ xs).take (j + 1)))) →
    Sat w (ladderFrom k pre.length xs) := by
  intro xs
  induction xs with
  | nil => intro pre _ _ _; cases pre.length <;> simp [ladderFrom]
  | cons x xs ih =>
    intro pre hp hc hv
    obtain ⟨i, hi⟩ : ∃ i, pre.length = i + 1 := ⟨pre.length - 1, by have := List.length_pos_iff.2 hp; omega⟩
    have hs : w (.aux (k + i)) = decide (0 < cnt w pre) := by
      rw [hv i (by simp; omega)]
      have : (pre ++ x :: xs).take (i + 1) = pre := by rw [← hi]; simp
      rw [this]
    rw [cnt_append, cnt_cons] at hc
    rw [hi]
    cases xs with
    | nil =>
      simp only [ladderFrom, sat_cons, List.mem_cons, List.not_mem_nil, or_false, exists_eq_or_imp, exists_eq_left, Lit.eval_neg, al_eval, hs]
      cases hx : x.eval w <;> simp_all
    | cons y ys =>
      have hs' : w (.aux (k + (i + 1))) = decide (0 < cnt w (pre ++ [x])) := by
        rw [hv (i + 1) (by simp; omega)]
        have : (pre ++ x :: y :: ys).take (i + 1 + 1) = pre ++ [x] := by
          rw [← hi, List.take_append, List.take_of_length_le (by omega)]; simp
        rw [this]
      rw [ladderFrom]
      · simp only [sat_append, sat_cons, List.mem_cons, List.not_mem_nil, or_false, exists_eq_or_imp, exists_eq_left, Lit.eval_neg, al_eval, hs, hs',
          cnt_append, cnt_cons, cnt_nil]
        refine ⟨?_, ?_⟩
        · cases hx : x.eval w
          · simp; omega
          · simp [hx] at hc; simp; omega
        · have := ih (pre ++ [x]) (by simp) (by simp only [List.append_assoc, List.singleton_append]; rw [cnt_append, cnt_cons]; exact hc)
            (by simpa using hv)
          simpa [hi] using this
      · simp

theorem ladderFrom_vars {k : Nat} : ∀ (xs : List (Lit (EV α))) (i : Nat), ∀ c ∈ ladderFrom k i xs, ∀ l ∈ c,
    (∃ m ∈ xs, m.var = l.var) ∨ (xs.length + i ≤ 1) ∨ New k (k + (xs.length + i - 1)) l.var := by
  intro xs
  induction xs with
  | nil => intro i; cases i <;> simp [ladderFrom]
  | cons x xs ih =>
    intro i c hc l hl
    cases i with
    | zero =>
      rw [ladderFrom] at hc
      rcases List.mem_cons.1 hc with rfl | hc
      · simp only [List.mem_cons, List.not_mem_nil, or_false] at hl
        rcases hl with rfl | rfl
        · exact .inl ⟨x, List.mem_cons_self, rfl⟩
        · right; simp only [List.length_cons]
          by_cases h : xs.length = 0
          · left; omega
          · right; rw [new_al]; omega
      · rcases ih 1 c hc l hl with ⟨m, hm, e⟩ | h | h
        · exact .inl ⟨m, List.mem_cons_of_mem _ hm, e⟩
        · right; left; simp only [List.length_cons]; omega
        · right; right; exact h.mono (Nat.le_refl _) (by simp)
    | succ i =>
      cases xs with
      | nil =>
        simp only [ladderFrom, List.mem_singleton] at hc
        subst hc
        simp only [List.mem_cons, List.not_mem_nil, or_false] at hl
        rcases hl with rfl | rfl
        · exact .inl ⟨x, List.mem_cons_self, rfl⟩
        · right; right; rw [neg_var, new_al]; simp
      | cons y ys =>
        rw [ladderFrom] at hc
        · rcases List.mem_append.1 hc with hc | hc
          · simp only [List.mem_cons, List.not_mem_nil, or_false] at hc
            rcases hc with rfl | rfl | rfl <;> simp only [List.mem_cons, List.not_mem_nil, or_false] at hl <;> rcases hl with rfl | rfl <;>
              first
                | exact .inl ⟨x, List.mem_cons_self, rfl⟩
                | (right; right; simp only [neg_var, new_al, List.length_cons]; omega)
          · rcases ih (i + 2) c hc l hl with ⟨m, hm, e⟩ | h | h
            · exact .inl ⟨m, List.mem_cons_of_mem _ hm, e⟩
            · simp at h; omega
            · right; right; exact h.mono (Nat.le_refl _) (by simp; omega)
        · simp

theorem ladder_exact {k : Nat} {ls : List (Lit (EV α))} (hn : 2 ≤ ls.length) (ho : ∀ l ∈ ls, Old k l) :
    Exact k (ladder k ls).2 ls (ladder k ls).1 (fun v => cnt v ls ≤ 1) where
  le := by simp [ladder]
  vars := by
    intro c hc l hl
    rcases ladderFrom_vars ls 0 c hc l hl with h | h | h
    · exact .inl h
    · omega
    · exact .inr (by simpa [ladder] using h)
  sound := fun w h => ladder_sound h
  complete := by
    intro v hv
    refine ⟨setNew v k (k + (ls.length - 1)) (fun j => decide (0 < cnt v (ls.take (j + 1)))), fun x hx => setNew_off hx, ?_⟩
    generalize hw : setNew v k (k + (ls.length - 1)) (fun j => decide (0 < cnt v (ls.take (j + 1)))) = w
    have hcg : ∀ ms : List (Lit (EV α)), (∀ l ∈ ms, l ∈ ls) → cnt w ms = cnt v ms := fun ms hm =>
      cnt_congr fun l hl => by rw [← hw, setNew_off ((ho l (hm l hl)).not_new (Nat.le_refl _))]
    have hval : ∀ j, j + 1 < ls.length → w (.aux (k + j)) = decide (0 < cnt w (ls.take (j + 1))) := by
      intro j hj
      rw [hcg _ fun l hl => List.mem_of_mem_take hl]
      rw [← hw, setNew_on (by omega)]
    cases ls with
    | nil => simp at hn
    | cons x xs =>
      have := ladderFrom_complete (k := k) (w := w) xs [x] (by simp) (by rw [hcg _ (by simp)]; exact hv) hval
      simp only [ladder, ladderFrom, sat_cons]
      refine ⟨?_, this⟩
      have h0 := hval 0 (by omega)
      simp only [Nat.add_zero, Nat.zero_add, List.take_succ_cons, List.take_zero, cnt_cons, cnt_nil] at h0
      simp only [List.mem_cons, List.not_mem_nil, or_false, exists_eq_or_imp, exists_eq_left, Lit.eval_neg, al_eval, h0]
      cases x.eval w <;> simp

end Verif.Enc
