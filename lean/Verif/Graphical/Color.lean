import Verif.Graphical.Mermaid
/-!
# Colors (C73)

Model of `ColorFromRgb`, /repo/graphical/styling.go:33-45.
-/
namespace Verif.Dot

/-! ## model -/

/-- styling.go:43-45 -/
def isValidRgb (n : Int) : Bool := decide (0 ≤ n) && decide (n ≤ 255)

/-- `%02x`, for numbers that are not negative -/
def hex02 (n : Nat) : Text := if (Nat.toDigits 16 n).length < 2 then '0' :: Nat.toDigits 16 n else Nat.toDigits 16 n

/-- styling.go:33-41; the error and the color -/
def fromRgb (r g b : Int) : Bool × Text :=
  if !isValidRgb r || !isValidRgb g || !isValidRgb b then (true, "#000000".toList)
  else (false, "#".toList ++ hex02 r.toNat ++ hex02 g.toNat ++ hex02 b.toNat)

/-! ## specification -/

/-- the value of a digit -/
def hexVal (c : Char) : Option Nat :=
  if '0' ≤ c ∧ c ≤ '9' then some (c.toNat - '0'.toNat) else if 'a' ≤ c ∧ c ≤ 'f' then some (c.toNat - 'a'.toNat + 10) else none

/-- the number that two digits stand for -/
def byteOf (c d : Char) : Option Nat := (hexVal c).bind fun x => (hexVal d).map fun y => 16 * x + y

/-- the color that a text `#rrggbb` stands for -/
def rgbOf : Text → Option (Nat × Nat × Nat)
  | ['#', a, b, c, d, e, f] => (byteOf a b).bind fun r => (byteOf c d).bind fun g => (byteOf e f).map fun bl => (r, g, bl)
  | _ => none

/-! ## theorems -/

theorem hex02_spec : ∀ n : Fin 256, ∃ c d, hex02 n = [c, d] ∧ byteOf c d = some n.1 := by
  have k : ∀ n : Fin 256, (match hex02 n with | [c, d] => decide (byteOf c d = some n.1) | _ => false) = true := by decide +kernel
  intro n
  have h := k n
  split at h
  · rename_i c d e
    exact ⟨c, d, e, of_decide_eq_true h⟩
  · cases h

/-- C73: there is an error iff some value is not between 0 and 255; otherwise the text stands for the three values -/
theorem C73_rgb (r g b : Int) : ((fromRgb r g b).1 = true ↔ ¬ ((0 ≤ r ∧ r ≤ 255) ∧ (0 ≤ g ∧ g ≤ 255) ∧ 0 ≤ b ∧ b ≤ 255)) ∧
    ((fromRgb r g b).1 = false → ∃ x y z : Nat, r = x ∧ g = y ∧ b = z ∧ rgbOf (fromRgb r g b).2 = some (x, y, z)) ∧
    ((fromRgb r g b).1 = true → rgbOf (fromRgb r g b).2 = some (0, 0, 0)) := by
  by_cases h : (0 ≤ r ∧ r ≤ 255) ∧ (0 ≤ g ∧ g ≤ 255) ∧ 0 ≤ b ∧ b ≤ 255
  · have hv : (!isValidRgb r || !isValidRgb g || !isValidRgb b) = false := by simp [isValidRgb, h]
    unfold fromRgb
    rw [hv]
    refine ⟨⟨fun e => by simp at e, fun e => absurd h e⟩, fun _ => ⟨r.toNat, g.toNat, b.toNat, by omega, by omega, by omega, ?_⟩, by simp⟩
    obtain ⟨c1, d1, e1, f1⟩ := hex02_spec ⟨r.toNat, by omega⟩
    obtain ⟨c2, d2, e2, f2⟩ := hex02_spec ⟨g.toNat, by omega⟩
    obtain ⟨c3, d3, e3, f3⟩ := hex02_spec ⟨b.toNat, by omega⟩
    simp only at e1 e2 e3 f1 f2 f3
    simp only [Bool.false_eq_true, if_false, e1, e2, e3]
    show rgbOf ['#', c1, d1, c2, d2, c3, d3] = _
    simp [rgbOf, f1, f2, f3]
  · have hv : (!isValidRgb r || !isValidRgb g || !isValidRgb b) = true := by
      simp only [isValidRgb, Bool.or_eq_true, Bool.not_eq_true', Bool.and_eq_false_iff, decide_eq_false_iff_not]
      omega
    unfold fromRgb
    rw [hv]
    have h0 : rgbOf "#000000".toList = some (0, 0, 0) := by decide +kernel
    exact ⟨⟨fun _ => h, fun _ => rfl⟩, fun e => by simp at e, fun _ => h0⟩

/-- C73: such colors are among those for which C70 and C71 say that drawings can be read back -/
theorem C73_clean (r g b : Int) : ∀ c ∈ ['"', ',', '\n'], c ∉ (fromRgb r g b).2 := by
  have hx : ∀ t : Text, (rgbOf t).isSome → ∀ c ∈ ['"', ',', '\n'], c ∉ t := by
    intro t ht
    unfold rgbOf at ht
    split at ht
    · rename_i a b c d e f
      have v : ∀ {x : Char}, (hexVal x).isSome → x ≠ '"' ∧ x ≠ ',' ∧ x ≠ '\n' := fun {x} hx => by
        refine ⟨?_, ?_, ?_⟩ <;> rintro rfl <;> exact absurd hx (by decide)
      have w : ∀ {x y : Char}, byteOf x y ≠ none → (x ≠ '"' ∧ x ≠ ',' ∧ x ≠ '\n') ∧ y ≠ '"' ∧ y ≠ ',' ∧ y ≠ '\n' := fun {x y} h => by
        unfold byteOf at h
        refine ⟨v ?_, v ?_⟩
        · cases hx : hexVal x with
          | none => rw [hx] at h; exact absurd rfl h
          | some _ => rfl
        · cases hy : hexVal y with
          | none => rw [hy] at h; exact absurd (by cases hexVal x <;> rfl) h
          | some _ => rfl
      have h1 : byteOf a b ≠ none := fun h => by rw [h] at ht; simp at ht
      have h2 : byteOf c d ≠ none := fun h => by rw [h] at ht; simp at ht
      have h3 : byteOf e f ≠ none := fun h => by rw [h] at ht; simp at ht
      have a1 := w h1
      have a2 := w h2
      have a3 := w h3
      intro k hk
      simp only [List.mem_cons, List.not_mem_nil, or_false] at hk
      rcases hk with rfl | rfl | rfl <;> simp only [List.mem_cons, List.not_mem_nil, or_false, not_or] <;>
        exact ⟨by decide, by tauto, by tauto, by tauto, by tauto, by tauto, by tauto⟩
    · simp at ht
  refine hx _ ?_
  obtain ⟨-, h1, h2⟩ := C73_rgb r g b
  cases he : (fromRgb r g b).1 with
  | true => rw [h2 he]; rfl
  | false =>
    obtain ⟨x, y, z, -, -, -, h⟩ := h1 he
    rw [h]; rfl

example : fromRgb 234 32 7 = (false, "#ea2007".toList) ∧ (fromRgb 256 0 0).1 = true ∧ (fromRgb 0 (-1) 0).1 = true := by decide +kernel

end Verif.Dot
