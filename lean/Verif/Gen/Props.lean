import Verif.Gen.Model
import Verif.Transform.Props
import Mathlib.Data.Fintype.EquivFin
import Mathlib.Data.Fintype.Pigeonhole
/-!
# C56: the generated problems

Specifications: `Placed`, `Clash` for pigeons, `Attack`, `Solution` for queens.  They speak about boards only, not about formulas.
-/
namespace Verif.Gen
open Verif Verif.Tree Verif.Transform
variable {α : Type} [DecidableEq α]

/-! ### pigeon holes -/

/-- pigeon `i` sits in one of the holes `1 … n`; `b i j`: pigeon `i` sits in hole `j` -/
def Placed (b : Nat → Nat → Bool) (n i : Nat) : Prop := ∃ j, 1 ≤ j ∧ j ≤ n ∧ b i j = true

/-- pigeons `i` and `k` sit both in hole `j` -/
def Clash (b : Nat → Nat → Bool) (j i k : Nat) : Prop := b i j = true ∧ b k j = true

/-- where the pigeons sit: `n(i-1)+j` is the number of the variable of pigeon `i` and hole `j` -/
def board (name : Nat → α) (n : Nat) (v : α → Bool) (i j : Nat) : Bool := v (name (n * (i - 1) + j))

theorem eval_pos (v : α → Bool) (x : α) : (pos x).eval v = v x := by simp [pos, Lit.eval]
theorem eval_neg (v : α → Bool) (x : α) : (neg x).eval v = !v x := by simp [neg, Lit.eval]

/-- **C56** the pigeonhole formula says: each of the `n+1` pigeons sits in one of the `n` holes and no two in the same -/
theorem C56_pigeon_means (cons : Bool) (name : Nat → α) (n : Nat) (v : α → Bool) :
    (pigeonHole cons name n).eval v = true ↔
      (∀ i, 1 ≤ i → i ≤ n + 1 → Placed (board name n v) n i) ∧
      ∀ j i k, 1 ≤ j → j ≤ n → 1 ≤ i → i < k → k ≤ n + 1 → ¬ Clash (board name n v) j i k := by
  have h1 : (placeInSomeHole cons name n).eval v = true ↔ ∀ i, 1 ≤ i → i ≤ n + 1 → Placed (board name n v) n i := by
    unfold placeInSomeHole
    split
    · rename_i e; subst e
      simp only [eval_tAnd, List.all_cons, List.all_nil, Bool.and_true, Bool.and_eq_true, eval_pos]
      constructor
      · rintro ⟨a, b⟩ i hi1 hi2
        refine ⟨1, Nat.le_refl _, Nat.le_refl _, ?_⟩
        have : i = 1 ∨ i = 2 := by omega
        rcases this with rfl | rfl
        · exact a
        · exact b
      · intro h
        obtain ⟨j, hj1, hj2, e1⟩ := h 1 (by omega) (by omega)
        obtain ⟨j', hj1', hj2', e2⟩ := h 2 (by omega) (by omega)
        have ej : j = 1 := by omega
        have ej' : j' = 1 := by omega
        subst ej; subst ej'
        exact ⟨e1, e2⟩
    · simp only [eval_tAnd, someHole, List.all_map, List.all_eq_true, Function.comp_apply, eval_tOr, List.any_map, List.any_eq_true, eval_pos, List.mem_range'_1]
      constructor
      · intro h i hi1 hi2
        obtain ⟨j, ⟨a, b⟩, e⟩ := h i ⟨hi1, by omega⟩
        exact ⟨j, a, by omega, e⟩
      · rintro h i ⟨hi1, hi2⟩
        obtain ⟨j, a, b, e⟩ := h i hi1 (by omega)
        exact ⟨j, ⟨a, by omega⟩, e⟩
  have h2 : (onlyOnePigeonInHole cons name n).eval v = true ↔ ∀ j i k, 1 ≤ j → j ≤ n → 1 ≤ i → i < k → k ≤ n + 1 → ¬ Clash (board name n v) j i k := by
    unfold onlyOnePigeonInHole Clash board
    split
    · rename_i e; subst e
      simp only [eval_tOr, List.any_cons, List.any_nil, Bool.or_false, Bool.or_eq_true, eval_neg, Bool.not_eq_true']
      constructor
      · intro h j i k hj1 hj2 hi hk hk2
        have e1 : j = 1 := by omega
        have e2 : i = 1 := by omega
        have e3 : k = 2 := by omega
        subst e1; subst e2; subst e3
        rintro ⟨a, b⟩
        rcases h with h | h
        · exact Bool.noConfusion (h.symm.trans a)
        · exact Bool.noConfusion (h.symm.trans b)
      · intro h
        have := h 1 1 2 (by omega) (by omega) (by omega) (by omega) (by omega)
        simp only [Nat.sub_self, Nat.mul_zero, Nat.zero_add, Nat.mul_one, Nat.reduceSub, Nat.reduceAdd] at this
        cases ha : v (name 1)
        · exact Or.inl rfl
        · exact Or.inr (by cases hb : v (name 2) with | false => rfl | true => exact absurd ⟨ha, hb⟩ this)
    · simp only [eval_tAnd, List.all_eq_true, onePigeon, List.mem_flatMap, List.mem_map, List.mem_range'_1, forall_exists_index, and_imp]
      constructor
      · intro h j i k hj1 hj2 hi hk hk2
        have := h _ j hj1 (by omega) i hi (by omega) k (by omega) (by omega) rfl
        simp only [eval_tOr, List.any_cons, List.any_nil, Bool.or_false, Bool.or_eq_true, eval_neg, Bool.not_eq_true'] at this
        rintro ⟨a, b⟩
        rcases this with h | h
        · exact Bool.noConfusion (h.symm.trans a)
        · exact Bool.noConfusion (h.symm.trans b)
      · intro h f j hj1 hj2 i hi1 hi2 k hk1 hk2 e
        subst e
        have := h j i k hj1 (by omega) hi1 (by omega) (by omega)
        simp only [eval_tOr, List.any_cons, List.any_nil, Bool.or_false, Bool.or_eq_true, eval_neg, Bool.not_eq_true']
        cases ha : v (name (n * (i - 1) + j))
        · exact Or.inl rfl
        · exact Or.inr (by cases hb : v (name (n * (k - 1) + j)) with | false => rfl | true => exact absurd ⟨ha, hb⟩ this)
  rw [pigeonHole, eval_tAnd]
  simp only [List.all_cons, List.all_nil, Bool.and_true, Bool.and_eq_true, h1, h2]

/-- **C56** the pigeonhole formula is unsatisfiable for every size -/
theorem C56_pigeon_unsat (cons : Bool) (name : Nat → α) (n : Nat) (v : α → Bool) : (pigeonHole cons name n).eval v = false := by
  by_contra hv
  obtain ⟨h1, h2⟩ := (C56_pigeon_means cons name n v).1 (by simpa using hv)
  have : ∀ i : Fin (n + 1), ∃ j : Fin n, board name n v (i.1 + 1) (j.1 + 1) = true := by
    intro i
    obtain ⟨j, a, b, e⟩ := h1 (i.1 + 1) (by omega) (by omega)
    exact ⟨⟨j - 1, by omega⟩, by rw [show (⟨j - 1, by omega⟩ : Fin n).1 + 1 = j from by simp only; omega]; exact e⟩
  choose g hg using this
  obtain ⟨a, b, hab, e⟩ := Fintype.exists_ne_map_eq_of_card_lt g (by simp)
  have key : ∀ a b : Fin (n + 1), a.1 < b.1 → g a = g b → False := fun a b hlt e =>
    h2 ((g a).1 + 1) (a.1 + 1) (b.1 + 1) (by omega) (by omega) (by omega) (by omega) (by omega) ⟨hg a, e ▸ hg b⟩
  rcases Nat.lt_or_gt_of_ne (fun h => hab (Fin.ext h)) with h | h
  · exact key a b h e
  · exact key b a h e.symm

theorem pos_inj {n i j i' j' : Nat} (hi : 1 ≤ i) (hi' : 1 ≤ i') (hj : 1 ≤ j) (hj' : 1 ≤ j') (hjn : j ≤ n) (hjn' : j' ≤ n) (e : n * (i - 1) + j = n * (i' - 1) + j') : i = i' ∧ j = j' := by
  have hn : 0 < n := by omega
  have e2 : n * (i - 1) + (j - 1) = n * (i' - 1) + (j' - 1) := by omega
  have a := congrArg (· / n) e2
  simp only [Nat.mul_add_div hn, Nat.div_eq_of_lt (show j - 1 < n by omega), Nat.div_eq_of_lt (show j' - 1 < n by omega)] at a
  have : i = i' := by omega
  subst this
  exact ⟨rfl, by omega⟩

open Classical in
/-- every board is the board of an assignment -/
theorem board_surj {name : Nat → α} (hn : ∀ a b, name a = name b → a = b) (n : Nat) (b : Nat → Nat → Bool) :
    ∃ v : α → Bool, ∀ i j, 1 ≤ i → 1 ≤ j → j ≤ n → board name n v i j = b i j := by
  refine ⟨fun x => decide (∃ i j, 1 ≤ i ∧ 1 ≤ j ∧ j ≤ n ∧ x = name (n * (i - 1) + j) ∧ b i j = true), fun i j hi hj hjn => ?_⟩
  unfold board
  rw [Bool.eq_iff_iff, decide_eq_true_iff]
  constructor
  · rintro ⟨i', j', hi', hj', hjn', e, h⟩
    obtain ⟨rfl, rfl⟩ := pos_inj hi hi' hj hj' hjn hjn' (hn _ _ e)
    exact h
  · intro h
    exact ⟨i, j, hi, hj, hjn, rfl, h⟩

/-- **C56** the formula is tight: without the clause of one pigeon it is satisfiable … -/
theorem C56_pigeon_tight_pigeon {name : Nat → α} (hn : ∀ a b, name a = name b → a = b) {n p : Nat} (hp : 1 ≤ p) (hp2 : p ≤ n + 1) :
    ∃ v : α → Bool, (∀ i, 1 ≤ i → i ≤ n + 1 → i ≠ p → Placed (board name n v) n i) ∧
      ∀ j i k, 1 ≤ j → j ≤ n → 1 ≤ i → i < k → k ≤ n + 1 → ¬ Clash (board name n v) j i k := by
  obtain ⟨v, hv⟩ := board_surj hn n fun i j => decide (i ≠ p ∧ j = if i < p then i else i - 1)
  refine ⟨v, fun i hi hi2 hip => ?_, fun j i k hj hj2 hi hk hk2 => ?_⟩
  · refine ⟨if i < p then i else i - 1, ?_, ?_, ?_⟩
    · split <;> omega
    · split <;> omega
    · rw [hv _ _ hi (by split <;> omega) (by split <;> omega)]; simp [hip]
  · rintro ⟨a, b⟩
    rw [hv _ _ hi hj hj2] at a
    rw [hv _ _ (by omega) hj hj2] at b
    simp only [decide_eq_true_eq] at a b
    obtain ⟨a1, a2⟩ := a
    obtain ⟨b1, b2⟩ := b
    split at a2 <;> split at b2 <;> omega

/-- **C56** … and without the clause of one hole and two pigeons, too -/
theorem C56_pigeon_tight_hole {name : Nat → α} (hn : ∀ a b, name a = name b → a = b) {n h p q : Nat} (hh : 1 ≤ h) (hh2 : h ≤ n) (hp : 1 ≤ p) (hpq : p < q) (hq : q ≤ n + 1) :
    ∃ v : α → Bool, (∀ i, 1 ≤ i → i ≤ n + 1 → Placed (board name n v) n i) ∧
      ∀ j i k, 1 ≤ j → j ≤ n → 1 ≤ i → i < k → k ≤ n + 1 → (j, i, k) ≠ (h, p, q) → ¬ Clash (board name n v) j i k := by
  -- the pigeons but `q` in the holes one by one, the holes `p` and `h` swapped, and `q` beside `p`
  have ⟨g, hg⟩ : ∃ g : Nat → Nat, ∀ i, g i = if i = q then h else (if (if i < q then i else i - 1) = p then h else if (if i < q then i else i - 1) = h then p else (if i < q then i else i - 1)) := ⟨_, fun _ => rfl⟩
  have g1 : ∀ i, 1 ≤ i → i ≤ n + 1 → 1 ≤ g i ∧ g i ≤ n := by
    intro i hi hi2
    rw [hg]
    split
    · omega
    · split <;> split <;> (try split) <;> omega
  have g2 : ∀ i k, 1 ≤ i → i < k → k ≤ n + 1 → g i = g k → g i = h ∧ i = p ∧ k = q := by
    intro i k hi hk hk2 e
    rw [hg i, hg k] at e
    rw [hg i]
    split_ifs at e ⊢ <;> omega
  obtain ⟨v, hv⟩ := board_surj hn n fun i j => decide (j = g i)
  refine ⟨v, fun i hi hi2 => ⟨g i, (g1 i hi hi2).1, (g1 i hi hi2).2, ?_⟩, fun j i k hj hj2 hi hk hk2 hne => ?_⟩
  · rw [hv _ _ hi (g1 i hi hi2).1 (g1 i hi hi2).2]; simp
  · rintro ⟨a, b⟩
    rw [hv _ _ hi hj hj2] at a
    rw [hv _ _ (by omega) hj hj2] at b
    simp only [decide_eq_true_eq] at a b
    obtain ⟨c1, c2, c3⟩ := g2 i k hi hk hk2 (a.symm.trans b)
    exact hne (by rw [a, c1, c2, c3])

/-! ### queens -/

/-- two queens attack each other: different cells in the same row, column or diagonal -/
def Attack (a b : Nat × Nat) : Prop :=
  a ≠ b ∧ (a.1 = b.1 ∨ a.2 = b.2 ∨ a.1 + b.2 = b.1 + a.2 ∨ a.1 + a.2 = b.1 + b.2)

/-- a queen in every row of the `n × n` board, and no two queens attack each other -/
def Solution (q : Nat → Nat → Bool) (n : Nat) : Prop :=
  (∀ i < n, ∃ j < n, q i j = true) ∧
  ∀ i j i' j', i < n → j < n → i' < n → j' < n → q i j = true → q i' j' = true → ¬ Attack (i, j) (i', j')

theorem cnt_nonneg (v : α → Bool) : ∀ xs : List α, 0 ≤ cntTrue v xs
  | [] => by simp [cntTrue]
  | x :: xs => by have := cnt_nonneg v xs; simp only [cntTrue]; split <;> omega

theorem cnt_zero (v : α → Bool) : ∀ xs : List α, cntTrue v xs = 0 ↔ ∀ x ∈ xs, v x = false
  | [] => by simp [cntTrue]
  | x :: xs => by
    have h0 := cnt_nonneg v xs
    have := cnt_zero v xs
    simp only [cntTrue, List.mem_cons, forall_eq_or_imp]
    cases hx : v x
    · simp [this]
    · simp; omega

theorem cnt_le_one (v : α → Bool) : ∀ xs : List α, cntTrue v xs ≤ 1 ↔ xs.Pairwise fun x y => ¬ (v x = true ∧ v y = true)
  | [] => by simp [cntTrue]
  | x :: xs => by
    have h0 := cnt_nonneg v xs
    have ih := cnt_le_one v xs
    have hz := cnt_zero v xs
    simp only [cntTrue, List.pairwise_cons]
    cases hx : v x
    · simp [ih]
    · simp only [if_true, true_and, Bool.not_eq_true]
      rw [← hz, ← ih]; omega

theorem pairwise_range (P : Nat → Nat → Prop) (m : Nat) : (List.range m).Pairwise P ↔ ∀ a b, a < b → b < m → P a b := by
  rw [List.pairwise_iff_getElem]
  simp only [List.length_range, List.getElem_range]
  exact ⟨fun h a b hab hb => h a b (by omega) hb hab, fun h a b _ hb hab => h a b hab hb⟩

theorem encoded_eval (cons : Bool) {c : Cmp} (hc : c = .eq ∨ c = .le) (xs : List α) (v : α → Bool) : (encoded cons c xs).eval v = c.holds (cntTrue v xs) 1 := by
  have hs : (expand cons (.cc c 1 xs)).isSome = true := by
    rw [C34_expand_error]
    rcases hc with rfl | rfl <;> simp [amoExo]
  obtain ⟨r, hr⟩ := Option.isSome_iff_exists.1 hs
  have hr' : expandCC cons c 1 xs = some r := by rw [expand] at hr; exact hr
  rw [encoded, hr', Option.getD_some, expandCC_eval hr', Fm.eval_cc]

/-- an encoded at-most-one constraint over a row of cells -/
theorem amo_range (v : α → Bool) (g : Nat → α) (m : Nat) :
    Cmp.le.holds (cntTrue v ((List.range m).map g)) 1 = true ↔ ∀ a b, a < b → b < m → ¬ (v (g a) = true ∧ v (g b) = true) := by
  rw [← pairwise_range (fun a b => ¬ (v (g a) = true ∧ v (g b) = true)) m, ← List.pairwise_map (f := g) (R := fun x y => ¬ (v x = true ∧ v y = true)), ← cnt_le_one]
  simp [Cmp.holds]

theorem exo_range (v : α → Bool) (g : Nat → α) (m : Nat) :
    Cmp.eq.holds (cntTrue v ((List.range m).map g)) 1 = true ↔ (∃ a < m, v (g a) = true) ∧ ∀ a b, a < b → b < m → ¬ (v (g a) = true ∧ v (g b) = true) := by
  have h1 := amo_range v g m
  have h0 := cnt_nonneg v ((List.range m).map g)
  have hz := cnt_zero v ((List.range m).map g)
  simp only [Cmp.holds, decide_eq_true_eq] at h1 ⊢
  rw [← h1]
  have : (∃ a < m, v (g a) = true) ↔ ¬ cntTrue v ((List.range m).map g) = 0 := by
    rw [hz]
    simp only [List.mem_map, List.mem_range, forall_exists_index, and_imp, forall_apply_eq_imp_iff₂, not_forall, Bool.not_eq_false, exists_prop]
  rw [this]; omega

theorem range'_iff {n i : Nat} : i ∈ List.range' 1 (n - 2) ↔ 1 ≤ i ∧ i < n - 1 := by
  rw [List.mem_range'_1]; omega

/-- **C56** the models of the queens formula are exactly the solutions of the queens problem -/
theorem C56_queens (cons : Bool) (name : Nat → α) (n : Nat) (v : α → Bool) :
    (nQueens cons name n).eval v = true ↔ Solution (fun i j => v (cell name n i j)) n := by
  have expandAll : (nQueens cons name n).eval v = true ↔
      (∀ i < n, (∃ j < n, v (cell name n i j) = true) ∧ ∀ a b, a < b → b < n → ¬ (v (cell name n i a) = true ∧ v (cell name n i b) = true)) ∧
      (∀ i < n, (∃ j < n, v (cell name n j i) = true) ∧ ∀ a b, a < b → b < n → ¬ (v (cell name n a i) = true ∧ v (cell name n b i) = true)) ∧
      (∀ i < n - 1, ∀ a b, a < b → b < n - i → ¬ (v (cell name n a (i + a)) = true ∧ v (cell name n b (i + b)) = true)) ∧
      (∀ i, 1 ≤ i → i < n - 1 → ∀ a b, a < b → b < n - i → ¬ (v (cell name n (a + i) a) = true ∧ v (cell name n (b + i) b) = true)) ∧
      (∀ i < n - 1, ∀ a b, a < b → b < n - i → ¬ (v (cell name n a (n - 1 - (i + a))) = true ∧ v (cell name n b (n - 1 - (i + b))) = true)) ∧
      (∀ i, 1 ≤ i → i < n - 1 → ∀ a b, a < b → b < n - i → ¬ (v (cell name n (a + i) (n - 1 - a)) = true ∧ v (cell name n (b + i) (n - 1 - b)) = true)) := by
    rw [nQueens, eval_tAnd, List.all_map]
    simp only [queenConstraints, List.all_append, List.all_map, Bool.and_eq_true, List.all_eq_true, Function.comp_apply, List.mem_range, range'_iff,
      encoded_eval cons (Or.inl rfl), encoded_eval cons (Or.inr rfl), exo_range v, amo_range v, and_imp, and_assoc]
  rw [expandAll]
  constructor
  · rintro ⟨hr, hc, d1, d2, d3, d4⟩
    refine ⟨fun i hi => (hr i hi).1, ?_⟩
    -- it is enough to look at the pairs with the upper queen first
    have key : ∀ i j i' j', i < n → j < n → i' < n → j' < n → i < i' → v (cell name n i j) = true → v (cell name n i' j') = true →
        ¬ (j = j' ∨ i + j' = i' + j ∨ i + j = i' + j') := by
      intro i j i' j' hi hj hi' hj' hlt e e' h
      rcases h with h | h | h
      · subst h; exact (hc j hj).2 i i' hlt hi' ⟨e, e'⟩
      · by_cases hij : i ≤ j
        · have := d1 (j - i) (by omega) i i' hlt (by omega)
          rw [show j - i + i = j by omega, show j - i + i' = j' by omega] at this
          exact this ⟨e, e'⟩
        · have := d2 (i - j) (by omega) (by omega) j j' (by omega) (by omega)
          rw [show j + (i - j) = i by omega, show j' + (i - j) = i' by omega] at this
          exact this ⟨e, e'⟩
      · by_cases hij : i + j ≤ n - 1
        · have := d3 (n - 1 - (i + j)) (by omega) i i' hlt (by omega)
          rw [show n - 1 - (n - 1 - (i + j) + i) = j by omega, show n - 1 - (n - 1 - (i + j) + i') = j' by omega] at this
          exact this ⟨e, e'⟩
        · have := d4 (i + j - (n - 1)) (by omega) (by omega) (n - 1 - j) (n - 1 - j') (by omega) (by omega)
          rw [show n - 1 - j + (i + j - (n - 1)) = i by omega, show n - 1 - (n - 1 - j) = j by omega, show n - 1 - j' + (i + j - (n - 1)) = i' by omega,
            show n - 1 - (n - 1 - j') = j' by omega] at this
          exact this ⟨e, e'⟩
    rintro i j i' j' hi hj hi' hj' e e' ⟨hne, h⟩
    simp only at h e e'
    rcases Nat.lt_trichotomy i i' with hlt | heq | hlt
    · exact key i j i' j' hi hj hi' hj' hlt e e' (by omega)
    · subst heq
      have hjj : j ≠ j' := fun e => hne (by rw [e])
      rcases Nat.lt_or_gt_of_ne hjj with hl | hl
      · exact (hr i hi).2 j j' hl hj' ⟨e, e'⟩
      · exact (hr i hi).2 j' j hl hj ⟨e', e⟩
    · exact key i' j' i j hi' hj' hi hj hlt e' e (by omega)
  · rintro ⟨hr, ha⟩
    have na : ∀ i j i' j', i < n → j < n → i' < n → j' < n → (i, j) ≠ (i', j') → (i = i' ∨ j = j' ∨ i + j' = i' + j ∨ i + j = i' + j') →
        ¬ (v (cell name n i j) = true ∧ v (cell name n i' j') = true) := fun i j i' j' hi hj hi' hj' hne h e => ha i j i' j' hi hj hi' hj' e.1 e.2 ⟨hne, h⟩
    have ne1 : ∀ {i j i' j' : Nat}, i ≠ i' → (i, j) ≠ (i', j') := fun h e => h (congrArg Prod.fst e)
    refine ⟨fun i hi => ⟨hr i hi, fun a b hab hb => na _ _ _ _ hi (by omega) hi hb (fun e => by have := congrArg Prod.snd e; simp only at this; omega) (Or.inl rfl)⟩,
      fun i hi => ⟨?_, fun a b hab hb => na _ _ _ _ (by omega) hi hb hi (ne1 (by omega)) (Or.inr (Or.inl rfl))⟩,
      fun i hi a b hab hb => na _ _ _ _ (by omega) (by omega) (by omega) (by omega) (ne1 (by omega)) (by omega),
      fun i hi hi2 a b hab hb => na _ _ _ _ (by omega) (by omega) (by omega) (by omega) (ne1 (by omega)) (by omega),
      fun i hi a b hab hb => na _ _ _ _ (by omega) (by omega) (by omega) (by omega) (ne1 (by omega)) (by omega),
      fun i hi hi2 a b hab hb => na _ _ _ _ (by omega) (by omega) (by omega) (by omega) (ne1 (by omega)) (by omega)⟩
    -- `n` queens in different columns are in all columns
    have : ∀ r : Fin n, ∃ c : Fin n, v (cell name n r.1 c.1) = true := fun r => by
      obtain ⟨j, hj, e⟩ := hr r.1 r.2
      exact ⟨⟨j, hj⟩, e⟩
    choose g hg using this
    have inj : Function.Injective g := by
      intro a b e
      by_contra hab
      exact na _ _ _ _ a.2 (g a).2 b.2 (g b).2 (ne1 fun h => hab (Fin.ext h)) (Or.inr (Or.inl (congrArg Fin.val e))) ⟨hg a, hg b⟩
    obtain ⟨a, e⟩ := Finite.injective_iff_surjective.1 inj ⟨i, hi⟩
    exact ⟨a.1, a.2, by have := hg a; rwa [e] at this⟩

/-! ### concrete cases -/

/-- two holes: three pigeons, nine clauses -/
example : pigeonHole true id 2 = .and ([.or [.lit ⟨1, true⟩, .lit ⟨2, true⟩], .or [.lit ⟨3, true⟩, .lit ⟨4, true⟩], .or [.lit ⟨5, true⟩, .lit ⟨6, true⟩]] ++
    [.or [.lit ⟨1, false⟩, .lit ⟨3, false⟩], .or [.lit ⟨1, false⟩, .lit ⟨5, false⟩], .or [.lit ⟨3, false⟩, .lit ⟨5, false⟩],
     .or [.lit ⟨2, false⟩, .lit ⟨4, false⟩], .or [.lit ⟨2, false⟩, .lit ⟨6, false⟩], .or [.lit ⟨4, false⟩, .lit ⟨6, false⟩]]) := by rfl
example : (pigeonHole true id 50).eval (fun k => k % 3 == 0) = false := C56_pigeon_unsat _ _ _ _
example : ∃ v : Nat → Bool, (∀ i, 1 ≤ i → i ≤ 5 → i ≠ 3 → Placed (board id 4 v) 4 i) ∧ ∀ j i k, 1 ≤ j → j ≤ 4 → 1 ≤ i → i < k → k ≤ 5 → ¬ Clash (board id 4 v) j i k :=
  C56_pigeon_tight_pigeon (fun _ _ => id) (by decide) (by decide)
example : ∃ v : Nat → Bool, (∀ i, 1 ≤ i → i ≤ 5 → Placed (board id 4 v) 4 i) ∧ ∀ j i k, 1 ≤ j → j ≤ 4 → 1 ≤ i → i < k → k ≤ 5 → (j, i, k) ≠ (2, 1, 4) → ¬ Clash (board id 4 v) j i k :=
  C56_pigeon_tight_hole (fun _ _ => id) (by decide) (by decide) (by decide) (by decide) (by decide)
/-- one of the two solutions of size 4 -/
example : Solution (fun i j => [2, 8, 9, 15].contains (cell id 4 i j)) 4 := (C56_queens true id 4 fun k => [2, 8, 9, 15].contains k).1 (by decide +kernel)
/-- the main diagonal is not a solution -/
example : (nQueens true id 4).eval (fun k => [1, 6, 11, 16].contains k) = false := by decide +kernel

end Verif.Gen
