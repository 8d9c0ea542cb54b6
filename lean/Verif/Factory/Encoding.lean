import Verif.Factory.Props
/-
Bit-level encoding of handles, `formula/formula.go`, on machine words (`BitVec 32` = Go's `uint32`).
-/
namespace Verif.Factory
open Verif

/-- formula/formula.go:213-216 -/
def typeMask : BitVec 32 := 0xF0000000#32
def idMask : BitVec 32 := 0x0FFFFFFF#32

/-- formula/formula.go:231-234 `EncodeFormula` -/
def encodeFormula (fsort id : BitVec 32) : BitVec 32 := (fsort <<< 28) ||| (id &&& idMask)
/-- formula/formula.go:236-239 `Sort` -/
def sortOf (f : BitVec 32) : BitVec 32 := (f &&& typeMask) >>> 28
/-- formula/formula.go:241-244 `ID` -/
def idOf (f : BitVec 32) : BitVec 32 := f &&& idMask
/-- formula/formula.go:259-263 `IsPos` -/
def isPosBits (f : BitVec 32) : Bool := idOf f % 2#32 == 1#32
/-- formula/factory.go:484-486 `negId` -/
def negIdBits (id : BitVec 32) : BitVec 32 := id ^^^ 1#32

/-- the machine word of a model handle -/
def H.bits (h : H) : BitVec 32 := encodeFormula (BitVec.ofNat 32 h.sort.code) (BitVec.ofNat 32 h.id)

theorem mask_getLsb (j : Nat) : idMask.getLsbD j = decide (j < 28) := by
  have h : ∀ j : Fin 32, idMask.getLsbD j = decide (j.1 < 28) := by decide
  by_cases hj : j < 32
  · exact h ⟨j, hj⟩
  · rw [BitVec.getLsbD_of_ge _ _ (by omega)]; simp; omega
theorem tmask_getLsb (j : Nat) : typeMask.getLsbD j = (decide (28 ≤ j) && decide (j < 32)) := by
  have h : ∀ j : Fin 32, typeMask.getLsbD j = (decide (28 ≤ j.1) && decide (j.1 < 32)) := by decide
  by_cases hj : j < 32
  · exact h ⟨j, hj⟩
  · rw [BitVec.getLsbD_of_ge _ _ (by omega)]; simp; omega

/-- The id read back is the id masked to 28 bits; nothing of the sort leaks into it. -/
theorem idOf_encode (s i : BitVec 32) : idOf (encodeFormula s i) = i &&& idMask := by
  apply BitVec.eq_of_getLsbD_eq
  intro j hj
  simp only [idOf, encodeFormula, BitVec.getLsbD_and, BitVec.getLsbD_or, mask_getLsb, BitVec.getLsbD_shiftLeft]
  by_cases h : j < 28 <;> simp [h]

/-- The sort read back is the sort that was stored, for every sort below 16. -/
theorem sortOf_encode (s i : BitVec 32) (hs : s.toNat < 16) : sortOf (encodeFormula s i) = s := by
  apply BitVec.eq_of_getLsbD_eq
  intro j hj
  simp only [sortOf, encodeFormula, BitVec.getLsbD_and, BitVec.getLsbD_or, mask_getLsb, tmask_getLsb, BitVec.getLsbD_shiftLeft, BitVec.getLsbD_ushiftRight]
  by_cases h : j < 4
  · have h1 : 28 + j < 32 := by omega
    have h2 : ¬ 28 + j < 28 := by omega
    simp [h1, h2]
  · have h1 : ¬ 28 + j < 32 := by omega
    have : s.getLsbD j = false := by
      rw [BitVec.getLsbD, Nat.testBit_lt_two_pow]
      calc s.toNat < 2 ^ 4 := hs
        _ ≤ 2 ^ j := Nat.pow_le_pow_right (by omega) (by omega)
    simp [h1, this]

theorem FSort.code_lt (s : FSort) : s.code < 16 := by cases s <;> decide
theorem FSort.code_inj {s t : FSort} (h : s.code = t.code) : s = t := by
  cases s <;> cases t <;> first | rfl | (simp [FSort.code] at h)

theorem and_idMask_small (i : BitVec 32) (h : i.toNat < 2 ^ 28) : i &&& idMask = i := by
  apply BitVec.eq_of_getLsbD_eq
  intro j hj
  simp only [BitVec.getLsbD_and, mask_getLsb]
  by_cases hj : j < 28
  · simp [hj]
  · have : i.getLsbD j = false := by
      rw [BitVec.getLsbD, Nat.testBit_lt_two_pow]
      calc i.toNat < 2 ^ 28 := h
        _ ≤ 2 ^ j := Nat.pow_le_pow_right (by omega) (by omega)
    simp [this]

/-- C01 at the level of machine words: handles with ids below 2^28 are stored without loss, so different handles are different words. -/
theorem C01_encoding_injective {h h' : H} (b : h.id < 2 ^ 28) (b' : h'.id < 2 ^ 28) (e : h.bits = h'.bits) : h = h' := by
  have t : ∀ {h : H}, h.id < 2 ^ 28 → (BitVec.ofNat 32 h.id).toNat = h.id := by
    intro h hb; rw [BitVec.toNat_ofNat, Nat.mod_eq_of_lt]; omega
  have t2 : ∀ {h : H}, (BitVec.ofNat 32 h.sort.code).toNat = h.sort.code := by
    intro h; rw [BitVec.toNat_ofNat, Nat.mod_eq_of_lt]; have := h.sort.code_lt; omega
  have e1 := congrArg sortOf e
  have e2 := congrArg idOf e
  unfold H.bits at e1 e2
  rw [sortOf_encode _ _ (by rw [t2]; exact h.sort.code_lt), sortOf_encode _ _ (by rw [t2]; exact h'.sort.code_lt)] at e1
  rw [idOf_encode, idOf_encode, and_idMask_small _ (by rw [t b]; exact b), and_idMask_small _ (by rw [t b']; exact b')] at e2
  have e3 := congrArg BitVec.toNat e1
  have e4 := congrArg BitVec.toNat e2
  rw [t2, t2] at e3
  rw [t b, t b'] at e4
  obtain ⟨s, n⟩ := h
  obtain ⟨s', n'⟩ := h'
  simp only at e3 e4
  rw [FSort.code_inj e3, e4]

/-- Sort and id can be read back from the word. -/
theorem C01_encoding_roundtrip (h : H) (b : h.id < 2 ^ 28) :
    (sortOf h.bits).toNat = h.sort.code ∧ (idOf h.bits).toNat = h.id := by
  have t2 : (BitVec.ofNat 32 h.sort.code).toNat = h.sort.code := by
    rw [BitVec.toNat_ofNat, Nat.mod_eq_of_lt]; have := h.sort.code_lt; omega
  have t : (BitVec.ofNat 32 h.id).toNat = h.id := by rw [BitVec.toNat_ofNat, Nat.mod_eq_of_lt]; omega
  unfold H.bits
  rw [sortOf_encode _ _ (by rw [t2]; exact h.sort.code_lt), idOf_encode, and_idMask_small _ (by rw [t]; exact b)]
  exact ⟨t2, t⟩

/-- every handle known to a reachable factory has an id below 2^28 -/
theorem Reach.id_lt {c : Bool} {s : Fac} (r : Reach c s) {h : H} (v : Valid s h) : h.id < 2 ^ 28 := by
  have i := r.inv
  have := V.not_lt i.core v
  have := i.hi
  unfold posId at *
  split at * <;> omega

/-- C01: two known handles that are the same machine word are the same handle. -/
theorem C01_word_unique {c : Bool} {s : Fac} (r : Reach c s) {h h' : H} (v : Valid s h) (v' : Valid s h') (e : h.bits = h'.bits) : h = h' :=
  C01_encoding_injective (r.id_lt v) (r.id_lt v') e

/-- Beyond 28 bits ids are silently truncated: id 2^28 + 3 gives the same literal as id 3 (`nextPosId` has no overflow check). -/
theorem C01_overflow : encodeFormula 2#32 (BitVec.ofNat 32 (2 ^ 28 + 3)) = encodeFormula 2#32 3#32 := by decide

example : (⟨.and, 7⟩ : H).bits = 0x40000007#32 := by decide
example : Valid exS hAB := .inr (.inr (by decide +kernel))

end Verif.Factory
