import Mathlib.Data.List.Sort
import Mathlib.Order.Basic
import Mathlib.Data.List.Lex
/-!
# The order of propositions (C74)

Model of `PropComparator`, /repo/formula/proposition.go:67-79, by which the propositions of an unsat core (sat/unsat_core.go:45, 92) are sorted after they were taken from a map.
-/
namespace Verif.PropOrder

/-! ## model -/

/-- a text as bytes -/
abbrev Bytes := List Nat

/-- proposition.go:15-26: a proposition is a pointer to a formula and a description (or a backpack, of which only the text matters here); the formula is its handle -/
structure P where
  ptr : Nat
  desc : Bytes
  form : Nat

/-- proposition.go:31-33, 44-46 `String` with `"%s: %s"`; `pr` is `Formula.String` -/
def P.string (pr : Nat → Bytes) (p : P) : Bytes := p.desc ++ [58, 32] ++ pr p.form

/-- proposition.go:68-79. Texts are compared byte by byte. The handles have 32 bits, so their difference is exact. -/
def cmp (pr : Nat → Bytes) (a b : P) : Int :=
  if b.string pr < a.string pr then 1 else if a.string pr < b.string pr then -1 else (a.form : Int) - b.form

/-! ## specification -/

/-- what is seen of a proposition -/
def view (pr : Nat → Bytes) (p : P) : Bytes × Nat := (p.string pr, p.form)

/-- `slices.SortFunc`: the same elements in ascending order; nothing is said about the order of elements that compare equal -/
structure SortedBy (c : P → P → Int) (l s : List P) : Prop where
  perm : s.Perm l
  sorted : s.Pairwise fun a b => c a b ≤ 0

/-! ## theorems -/

variable {pr : Nat → Bytes}

theorem cmp_le {a b : P} : cmp pr a b ≤ 0 ↔ a.string pr < b.string pr ∨ (a.string pr = b.string pr ∧ a.form ≤ b.form) := by
  unfold cmp
  rcases lt_trichotomy (a.string pr) (b.string pr) with h | h | h
  · rw [if_neg (lt_asymm h), if_pos h]
    simp [h]
  · rw [h, if_neg (lt_irrefl _), if_neg (lt_irrefl _)]
    simp only [true_and, lt_irrefl, false_or]
    omega
  · rw [if_pos h]
    simp only [Int.reduceLE, false_iff, not_or, not_and]
    exact ⟨lt_asymm h, fun e => absurd e (ne_of_gt h)⟩

/-- C74: the comparator is what a sorting function needs (a strict weak order): both directions agree, it is transitive, and it gives 0 only for the same text and the same formula -/
theorem C74_order (a b c : P) : (cmp pr a b < 0 ↔ 0 < cmp pr b a) ∧ (cmp pr a b ≤ 0 ∨ cmp pr b a ≤ 0) ∧ (cmp pr a b ≤ 0 → cmp pr b c ≤ 0 → cmp pr a c ≤ 0) ∧
    (cmp pr a b < 0 → cmp pr b c ≤ 0 → cmp pr a c < 0) ∧ (cmp pr a b = 0 ↔ view pr a = view pr b) := by
  have anti : ∀ a b : P, cmp pr a b = - cmp pr b a := fun a b => by
    unfold cmp
    rcases lt_trichotomy (a.string pr) (b.string pr) with h | h | h
    · rw [if_neg (lt_asymm h), if_pos h, if_pos h]
    · rw [h, if_neg (lt_irrefl _), if_neg (lt_irrefl _), if_neg (lt_irrefl _), if_neg (lt_irrefl _)]
      omega
    · rw [if_pos h, if_neg (lt_asymm h), if_pos h]; rfl
  have tr : ∀ a b c : P, cmp pr a b ≤ 0 → cmp pr b c ≤ 0 → cmp pr a c ≤ 0 := fun a b c h1 h2 => by
    rw [cmp_le] at *
    rcases h1 with h1 | ⟨h1, h1'⟩ <;> rcases h2 with h2 | ⟨h2, h2'⟩
    · exact .inl (lt_trans h1 h2)
    · exact .inl (h2 ▸ h1)
    · exact .inl (h1 ▸ h2)
    · exact .inr ⟨h1.trans h2, by omega⟩
  have h1 := anti a b
  have h2 := anti a c
  have h3 := anti b c
  refine ⟨by omega, by omega, tr a b c, fun h4 h5 => ?_, ?_⟩
  · by_contra h
    have := tr b c a h5 (by omega)
    omega
  · unfold view
    rw [Prod.mk.injEq]
    have e1 : cmp pr a b ≤ 0 ↔ _ := cmp_le
    have e2 : cmp pr b a ≤ 0 ↔ _ := cmp_le
    constructor
    · intro h
      rcases e1.1 (by omega) with h4 | ⟨h4, h4'⟩ <;> rcases e2.1 (by omega) with h5 | ⟨h5, h5'⟩
      · exact absurd h4 (lt_asymm h5)
      · exact absurd h4 (h5 ▸ lt_irrefl _)
      · exact absurd h5 (h4 ▸ lt_irrefl _)
      · exact ⟨h4, by omega⟩
    · rintro ⟨h4, h5⟩
      have := e1.2 (.inr ⟨h4, by omega⟩)
      have := e2.2 (.inr ⟨h4.symm, by omega⟩)
      omega

/-- C74: in whatever order the propositions come out of the map, sorting them gives the same texts and formulas in the same order -/
theorem C74_deterministic {l l' s s' : List P} (h : l.Perm l') (hs : SortedBy (cmp pr) l s) (hs' : SortedBy (cmp pr) l' s') : s.map (view pr) = s'.map (view pr) := by
  have hp : (s.map (view pr)).Perm (s'.map (view pr)) := (hs.perm.trans (h.trans hs'.perm.symm)).map _
  have le : ∀ {s : List P}, s.Pairwise (fun a b => cmp pr a b ≤ 0) → (s.map (view pr)).Pairwise fun x y => x.1 < y.1 ∨ (x.1 = y.1 ∧ x.2 ≤ y.2) := fun h => by
    rw [List.pairwise_map]
    exact h.imp fun h => cmp_le.1 h
  refine hp.eq_of_pairwise (fun x y _ _ h1 h2 => ?_) (le hs.sorted) (le hs'.sorted)
  rcases h1 with h1 | ⟨h1, h1'⟩ <;> rcases h2 with h2 | ⟨h2, h2'⟩
  · exact absurd h1 (lt_asymm h2)
  · exact absurd h1 (h2 ▸ lt_irrefl _)
  · exact absurd h2 (h1 ▸ lt_irrefl _)
  · exact Prod.ext h1 (by omega)

/-! ### Examples -/

def exPr (n : Nat) : Bytes := [123, n % 2]
def exP : P := ⟨0, [97], 4⟩
def exQ : P := ⟨1, [97], 6⟩
def exR : P := ⟨2, [65, 98], 9⟩

/-- the same text and different formulas: the handles decide -/
example : cmp exPr exP exQ = -2 ∧ cmp exPr exR exP = -1 ∧ exP.string exPr = exQ.string exPr := by decide

/-- the hypotheses of `C74_deterministic` -/
example : SortedBy (cmp exPr) [exQ, exP, exR] [exR, exP, exQ] ∧ SortedBy (cmp exPr) [exP, exR, exQ] [exR, exP, exQ] ∧ [exQ, exP, exR].Perm [exP, exR, exQ] := by
  have h1 : [exR, exP, exQ].Perm [exQ, exP, exR] := (List.Perm.swap exP exR [exQ]).trans ((List.perm_middle (l₁ := [exP, exR])).trans (List.Perm.cons _ (List.Perm.refl _)))
  have h2 : [exR, exP, exQ].Perm [exP, exR, exQ] := List.Perm.swap _ _ _
  exact ⟨⟨h1, by decide⟩, ⟨h2, by decide⟩, h1.symm.trans h2⟩

end Verif.PropOrder
