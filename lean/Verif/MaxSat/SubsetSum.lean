import Mathlib.Data.List.Basic
/-!
# `subsetSum` of `maxsat/alg_wmsu3.go` (C42)

The dynamic-programming table is modelled as a function with pointwise updates, filled by the same loops in the same order.
Weights are natural numbers (the code is only called with soft-clause weights, which are at least 1).
-/
namespace Verif.MaxSat

/-- the two-dimensional slice `subset` -/
abbrev Table := Nat → Nat → Bool

/-- assignment `subset[i][j] = b` -/
def Table.put (t : Table) (i j : Nat) (b : Bool) : Table := fun i' j' => if i' = i ∧ j' = j then b else t i' j'

/-- a loop `for k := lo; k < lo + cnt; k++ { t = body k t }` -/
def loop (lo : Nat) : Nat → (Nat → Table → Table) → Table → Table
  | 0, _, t => t
  | cnt + 1, body, t => loop (lo + 1) cnt body (body lo t)

/-- alg_wmsu3.go:389-392: the body of the inner loop (`1 ≤ j`, so that `set[j-1]` exists) -/
def cell (set : List Nat) (i j : Nat) (t : Table) : Table :=
  let t := t.put i j (t i (j - 1))
  match set[j - 1]? with
  | none => t
  | some w => if w ≤ i then t.put i j (t i j || t (i - w) (j - 1)) else t

/-- alg_wmsu3.go:374-395 `subsetSum` -/
def subsetSum (set : List Nat) (sum : Nat) : Bool :=
  let n := set.length
  let t : Table := fun _ _ => false
  let t := loop 0 (n + 1) (fun i t => t.put 0 i true) t
  let t := loop 1 sum (fun i t => t.put i 0 false) t
  let t := loop 1 sum (fun i t => loop 1 n (fun j t => cell set i j t) t) t
  t sum n

/-- alg_wmsu3.go:116-120 and 191-195: `lbCost++` and the loop that skips unattainable bounds.
`none`: not finished after `fuel` rounds. -/
def raise (set : List Nat) : Nat → Nat → Option Nat
  | 0, _ => none
  | fuel + 1, lb => if subsetSum set lb then some lb else raise set fuel (lb + 1)

/-! ## specification -/

/-- some sub-multiset of the weights has the given sum -/
def Attainable (set : List Nat) (s : Nat) : Prop := ∃ l : List Nat, l.Sublist set ∧ l.sum = s

/-! ## lemmas -/

theorem loop_inv {P : Nat → Table → Prop} {body : Nat → Table → Table} : ∀ (cnt lo : Nat) (t : Table),
    P lo t → (∀ k t, lo ≤ k → k < lo + cnt → P k t → P (k + 1) (body k t)) → P (lo + cnt) (loop lo cnt body t)
  | 0, lo, t, h, _ => h
  | cnt + 1, lo, t, h, hs => by
    have := loop_inv (P := P) (body := body) cnt (lo + 1) (body lo t) (hs lo t (Nat.le_refl _) (by omega) h)
      (fun k t h1 h2 h3 => hs k t (by omega) (by omega) h3)
    rw [show lo + (cnt + 1) = lo + 1 + cnt from by omega]
    exact this

theorem attainable_zero (set : List Nat) : Attainable set 0 := ⟨[], List.nil_sublist _, rfl⟩

theorem attainable_nil (s : Nat) : Attainable [] s ↔ s = 0 := by
  constructor
  · rintro ⟨l, h, hs⟩
    have := List.sublist_nil.1 h
    subst this
    simpa using hs.symm
  · rintro rfl
    exact attainable_zero []

theorem attainable_concat (xs : List Nat) (w s : Nat) :
    Attainable (xs ++ [w]) s ↔ Attainable xs s ∨ (w ≤ s ∧ Attainable xs (s - w)) := by
  constructor
  · rintro ⟨l, h, hs⟩
    obtain ⟨l1, l2, rfl, h1, h2⟩ := List.sublist_append_iff.1 h
    cases l2 with
    | nil => exact Or.inl ⟨l1, h1, by simpa using hs⟩
    | cons y ys =>
      have h3 : ys = [] ∧ y = w := by
        cases h2 with
        | cons _ h => exact absurd (List.sublist_nil.1 h) (by simp)
        | cons_cons _ h => exact ⟨List.sublist_nil.1 h, rfl⟩
      obtain ⟨rfl, rfl⟩ := h3
      simp at hs
      exact Or.inr ⟨by omega, l1, h1, by omega⟩
  · rintro (⟨l, h, hs⟩ | ⟨hw, l, h, hs⟩)
    · exact ⟨l, h.trans (List.sublist_append_left _ _), hs⟩
    · exact ⟨l ++ [w], h.append (List.Sublist.refl _), by simp; omega⟩

theorem attainable_take (set : List Nat) {j w : Nat} (h : set[j]? = some w) (s : Nat) :
    Attainable (set.take (j + 1)) s ↔ Attainable (set.take j) s ∨ (w ≤ s ∧ Attainable (set.take j) (s - w)) := by
  rw [List.take_add_one, h]
  exact attainable_concat _ _ _

/-- row `i` is right for the columns below `m` -/
def RowOk (set : List Nat) (t : Table) (i m : Nat) : Prop :=
  ∀ j, j < m → (t i j = true ↔ Attainable (set.take j) i)

theorem subsetSum_correct (set : List Nat) (sum : Nat) : subsetSum set sum = true ↔ Attainable set sum := by
  unfold subsetSum
  dsimp only
  -- first row
  have h1 := loop_inv (P := fun k t => ∀ j, j < k → t 0 j = true) (body := fun i t => t.put 0 i true)
    (set.length + 1) 0 (fun _ _ => false) (by simp) (by
      intro k t _ _ h j hj
      simp only [Table.put]
      split
      · rfl
      · next hne => exact h j (by simp at hne; omega))
  generalize loop 0 (set.length + 1) (fun i t => Table.put t 0 i true) (fun _ _ => false) = t1 at h1 ⊢
  have h2 := loop_inv (P := fun k t => (∀ j, j < set.length + 1 → t 0 j = true) ∧ ∀ i, 1 ≤ i → i < k → t i 0 = false)
    (body := fun i t => t.put i 0 false) sum 1 t1 ⟨by simpa using h1, by omega⟩ (by
      intro k t hk _ h
      refine ⟨fun j hj => ?_, fun i h3 h4 => ?_⟩
      · simp only [Table.put]
        rw [if_neg (by omega)]
        exact h.1 j hj
      · simp only [Table.put]
        split
        · rfl
        · next hne => exact h.2 i h3 (by simp at hne; omega))
  generalize loop 1 sum (fun i t => Table.put t i 0 false) t1 = t2 at h2 ⊢
  have h3 := loop_inv (P := fun k t => (∀ i, i < k → RowOk set t i (set.length + 1)) ∧ ∀ i, 1 ≤ i → i < 1 + sum → t i 0 = false)
    (body := fun i t => loop 1 set.length (fun j t => cell set i j t) t) sum 1 t2
    ⟨by
      intro i hi j hj
      have : i = 0 := by omega
      subst this
      simp [h2.1 j hj, attainable_zero], h2.2⟩ (by
      intro k t hk hk2 h
      have h4 := loop_inv (P := fun m t => ((∀ i, i < k → RowOk set t i (set.length + 1)) ∧ ∀ i, 1 ≤ i → i < 1 + sum → t i 0 = false) ∧ RowOk set t k m)
        (body := fun j t => cell set k j t) set.length 1 t ⟨h, by
          intro j hj
          have : j = 0 := by omega
          subst this
          rw [h.2 k hk hk2]
          simp only [List.take_zero, attainable_nil]
          simp; omega⟩ (by
        intro m t hm hm2 h
        obtain ⟨⟨ha, hb⟩, hc⟩ := h
        obtain ⟨w, hw⟩ : ∃ w, set[m - 1]? = some w := ⟨set[m - 1]'(by omega), by rw [List.getElem?_eq_getElem]⟩
        -- the new table differs from the old one at `(k, m)` only
        have hcell : ∀ i j, cell set k m t i j = if i = k ∧ j = m then (t k (m - 1) || (decide (w ≤ k) && t (k - w) (m - 1))) else t i j := by
          intro i j
          simp only [cell, hw, Table.put]
          have hm1 : m - 1 ≠ m := by omega
          by_cases hwk : w ≤ k
          · by_cases hij : i = k ∧ j = m
            · simp [hwk, hij, hm1, Table.put]
            · simp [hwk, hij, Table.put]
          · simp [hwk, Table.put]
        have hval : (cell set k m t k m = true) ↔ Attainable (set.take m) k := by
          rw [hcell, if_pos ⟨rfl, rfl⟩, show m = (m - 1) + 1 from by omega, attainable_take set (by simpa using hw)]
          simp only [Nat.add_sub_cancel, Bool.or_eq_true, Bool.and_eq_true, decide_eq_true_eq]
          rw [hc (m - 1) (by omega)]
          refine or_congr Iff.rfl (and_congr_right fun hwk => ?_)
          by_cases hw0 : w = 0
          · subst hw0
            simpa using hc (m - 1) (by omega)
          · exact ha (k - w) (by omega) (m - 1) (by omega)
        refine ⟨⟨fun i hi j hj => ?_, fun i hi hi2 => ?_⟩, fun j hj => ?_⟩
        · rw [hcell, if_neg (by omega)]
          exact ha i hi j hj
        · rw [hcell, if_neg (by omega)]
          exact hb i hi hi2
        · by_cases hjm : j = m
          · subst hjm; exact hval
          · rw [hcell, if_neg (by omega)]
            exact hc j (by omega))
      refine ⟨fun i hi => ?_, h4.1.2⟩
      by_cases hik : i = k
      · subst hik
        rw [Nat.add_comm] 
        exact h4.2
      · exact h4.1.1 i (by omega))
  have := h3.1 sum (by omega) set.length (by omega)
  simpa using this

/-! ## C42 -/

/-- **C42**: `subsetSum` is exact, for every list of weights and every sum. -/
theorem C42_subsetSum (set : List Nat) (sum : Nat) : subsetSum set sum = true ↔ ∃ l : List Nat, l.Sublist set ∧ l.sum = sum :=
  subsetSum_correct set sum

/-- **C42**: the bound the skipping loop ends with is attainable, and no attainable value is skipped. -/
theorem C42_no_skip (set : List Nat) (fuel lb r : Nat) (h : raise set fuel lb = some r) :
    lb ≤ r ∧ (∃ l : List Nat, l.Sublist set ∧ l.sum = r) ∧
      ∀ s, lb ≤ s → s < r → ¬ ∃ l : List Nat, l.Sublist set ∧ l.sum = s := by
  induction fuel generalizing lb with
  | zero => simp [raise] at h
  | succ fuel ih =>
    rw [raise] at h
    split at h
    · next hs =>
      have h := Option.some.inj h
      subst h
      exact ⟨Nat.le_refl _, (C42_subsetSum set lb).1 hs, by omega⟩
    · next hs =>
      obtain ⟨h1, h2, h3⟩ := ih (lb + 1) h
      refine ⟨by omega, h2, fun s hs1 hs2 hx => ?_⟩
      by_cases e : s = lb
      · subst e; exact hs ((C42_subsetSum set s).2 hx)
      · exact h3 s (by omega) hs2 hx

/-- **C42**: the loop ends for every starting bound up to the sum of all weights. -/
theorem C42_ends (set : List Nat) (lb : Nat) (h : lb ≤ set.sum) : ∃ r, raise set (set.sum - lb + 1) lb = some r := by
  generalize hd : set.sum - lb = d
  induction d generalizing lb with
  | zero =>
    refine ⟨lb, ?_⟩
    rw [raise, if_pos]
    exact (C42_subsetSum set lb).2 ⟨set, List.Sublist.refl _, by omega⟩
  | succ d ih =>
    rw [raise]
    split
    · exact ⟨lb, rfl⟩
    · exact ih (lb + 1) (by omega) (by omega)

/-- **C42**: beyond the sum of all weights the loop never ends (the code would count up for ever). -/
theorem C42_diverges (set : List Nat) (lb : Nat) (h : set.sum < lb) (fuel : Nat) : raise set fuel lb = none := by
  induction fuel generalizing lb with
  | zero => rfl
  | succ fuel ih =>
    rw [raise, if_neg]
    · exact ih (lb + 1) (by omega)
    · intro hs
      obtain ⟨l, h1, h2⟩ := (C42_subsetSum set lb).1 hs
      have : l.sum ≤ set.sum := by
        clear h2 hs ih h
        induction h1 with
        | slnil => simp
        | cons a h ih => simp; omega
        | cons_cons a h ih => simp; omega
      omega

example : subsetSum [3, 5, 7] 12 = true ∧ subsetSum [3, 5, 7] 11 = false ∧ subsetSum [3, 5, 7] 4 = false := by decide
example : raise [3, 5, 7] 10 4 = some 5 := by decide
example : (12 : Nat) ≤ [3, 5, 7].sum ∧ [3, 5, 7].sum < 16 := by decide

end Verif.MaxSat
