import Mathlib.Data.List.Basic
/-!
# Solver literals and the truth of clauses

Specification part: `lv`, `Sat`.  The variable of a literal `l` is `l / 2` (`Vari`, core.go:145), `l % 2 = 1` says that it is negative (`Sign`, core.go:133).
-/
namespace Verif.Sat

/-- core.go:128-130 `Not` -/
def neg (l : Nat) : Nat := l ^^^ 1

/-- truth of a literal -/
def lv (u : Nat → Bool) (l : Nat) : Bool := if l % 2 = 0 then u (l / 2) else !u (l / 2)

/-- truth of a clause -/
def Sat (u : Nat → Bool) (c : List Nat) : Prop := ∃ l ∈ c, lv u l = true

theorem neg_eq (l : Nat) : neg l = if l % 2 = 0 then l + 1 else l - 1 := by
  have key : ∀ m : Nat, (2 * m) ^^^ 1 = 2 * m + 1 ∧ (2 * m + 1) ^^^ 1 = 2 * m := by
    intro m
    constructor <;>
    · apply Nat.eq_of_testBit_eq
      intro j
      rw [Nat.testBit_xor]
      cases j with
      | zero => simp [Nat.testBit_zero]
      | succ j =>
        simp only [Nat.testBit_succ]
        rw [show 2 * m / 2 = m from by omega, show (2 * m + 1) / 2 = m from by omega]
        simp
  obtain ⟨h1, h2⟩ := key (l / 2)
  unfold neg
  split
  · rw [show l = 2 * (l / 2) from by omega, h1]
  · rw [show l = 2 * (l / 2) + 1 from by omega, h2]; omega

@[simp] theorem neg_neg (l : Nat) : neg (neg l) = l := by
  rw [neg_eq, neg_eq]; split <;> split <;> omega

@[simp] theorem neg_var (l : Nat) : neg l / 2 = l / 2 := by
  rw [neg_eq]; split <;> omega

theorem neg_mod (l : Nat) : neg l % 2 = 1 - l % 2 := by
  rw [neg_eq]; split <;> omega

theorem neg_ne (l : Nat) : neg l ≠ l := by
  intro h
  have := neg_mod l
  rw [h] at this; omega

theorem neg_inj {a b : Nat} (h : neg a = neg b) : a = b := by rw [← neg_neg a, h, neg_neg]

theorem neg_comm {a b : Nat} : neg a = b ↔ a = neg b := ⟨fun h => by rw [← h, neg_neg], fun h => by rw [h, neg_neg]⟩

theorem var_eq {a b : Nat} (h : a / 2 = b / 2) : a = b ∨ a = neg b := by
  rw [neg_eq]; split <;> omega

theorem lv_neg (u : Nat → Bool) (l : Nat) : lv u (neg l) = !lv u l := by
  unfold lv
  rw [neg_var, neg_mod]
  rcases Nat.mod_two_eq_zero_or_one l with h | h <;> simp [h]

end Verif.Sat
