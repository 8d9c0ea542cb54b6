import Mathlib.Data.Nat.Count
import Mathlib.Data.Finset.Card
import Mathlib.Order.Bounds.Basic
import Mathlib.Tactic.Ring
/-!
# The bit sets of the knowledge compiler (C63)

Model of /repo/dnnf/bitset.go, of `bitsetComp` (/repo/dnnf/compiler.go) and `toArray` (/repo/dnnf/dtree.go). Words are 64 bit vectors, indices natural numbers
(a negative index panics; indices of 32 bits do not overflow in the model). `clone` (bitset.go:128-132) copies the value, the identity here.
-/
namespace Verif.Bitset

abbrev Word := BitVec 64

/-- math/bits `OnesCount64`, `TrailingZeros64`, `LeadingZeros64` (library functions, by their documentation) -/
def ones (w : Word) : Nat := (List.range 64).countP fun i => w.getLsbD i
def trailing (w : Word) : Nat := ((List.range 64).find? fun i => w.getLsbD i).getD 64
def leading (w : Word) : Nat := ((List.range 64).find? fun i => w.getLsbD (63 - i)).getD 64

/-- bitset.go:7-9 -/
structure B where
  words : List Word
deriving DecidableEq

/-- bitset.go:11-18 `newBitset` -/
def new (size : Nat) : B := ⟨List.replicate ((size + 63) / 64) 0⟩

/-- bitset.go:62-69 `ensureWords` -/
def ensureWords (b : B) (n : Nat) : B := if n ≤ b.words.length then b else ⟨b.words ++ List.replicate (n - b.words.length) 0⟩

/-- bitset.go:52-60 `ensureSize` -/
def ensureSize (b : B) (bits : Nat) : B := ensureWords b ((bits + 63) / 64)

/-- bitset.go:20-27 `set` -/
def set (b : B) (i : Nat) : B :=
  let b := if b.words.length ≤ i / 64 then ensureSize b (i + 1) else b
  ⟨b.words.modify (i / 64) fun w => w ||| (1#64 <<< (i % 64))⟩

/-- bitset.go:29-33 `get` -/
def get (b : B) (i : Nat) : Bool := match b.words[i / 64]? with
  | none => false
  | some w => (w &&& (1#64 <<< (i % 64))) != 0

/-- bitset.go:35-40 `or` -/
def or (b o : B) : B := ⟨(ensureWords b o.words.length).words.zipIdx.map fun (w, i) => match o.words[i]? with
  | some x => w ||| x
  | none => w⟩

/-- bitset.go:42-50 `and` -/
def and (b o : B) : B := ⟨b.words.zipIdx.map fun (w, i) => match o.words[i]? with
  | some x => w &&& x
  | none => 0⟩

/-- bitset.go:71-77 `cardinality` -/
def cardinality (b : B) : Nat := (b.words.map ones).sum

/-- bitset.go:94-99: the loop over the following words; the first argument is the index of the first of them -/
def nextLoop : Nat → List Word → Option Nat
  | _, [] => none
  | i, w :: ws => if w ≠ 0 then some (i * 64 + trailing w) else nextLoop (i + 1) ws

/-- bitset.go:79-102 `nextSetBit`; `none` is -1 -/
def nextSetBit (b : B) (i : Nat) : Option Nat := match b.words[i / 64]? with
  | none => none
  | some w =>
    let w := w &&& (BitVec.allOnes 64 <<< (i % 64))
    if w ≠ 0 then some (i / 64 * 64 + trailing w) else nextLoop (i / 64 + 1) (b.words.drop (i / 64 + 1))

/-- bitset.go:108-114: the loop for the largest member, from the last word on -/
def maxBit : List Word → Nat
  | [] => 0
  | w :: ws => if w ≠ 0 then ws.length * 64 + 63 - leading w else maxBit ws

/-- bitset.go:104-120 `toBoolSlice` -/
def toBoolSlice (b : B) : List Bool := if b.words = [] then [] else (List.range (maxBit b.words.reverse + 1)).map (get b)

/-- bitset.go:122-126 `clear` -/
def clear (b : B) : B := ⟨b.words.map fun _ => 0⟩

/-- dtree.go:249-257 `toArray`: the loop; `n` places are left in the slice. `none`: index out of range -/
def toArrayLoop (b : B) : Nat → Nat → Option (List Nat)
  | n, i => match nextSetBit b i with
    | none => some (List.replicate n 0)
    | some j => match n with
      | 0 => none
      | n + 1 => (toArrayLoop b n (j + 1)).map (j :: ·)

/-- dtree.go:249-257 `toArray` -/
def toArray (b : B) : Option (List Nat) := toArrayLoop b (cardinality b) 0

/-- compiler.go:83-104: the loop of `bitsetComp` -/
def compLoop : List Word → List Word → Int
  | w1 :: ws1, w2 :: ws2 =>
    if w1 = w2 then compLoop ws1 ws2
    else if (w1 &&& (1#64 <<< trailing (w1 ^^^ w2))) != 0 then 1 else -1
  | _, _ => 0

/-- compiler.go:73-105 `bitsetComp` -/
def comp (a b : B) : Int :=
  if a.words.length < b.words.length then -1
  else if b.words.length < a.words.length then 1
  else compLoop a.words b.words

/-! ## words -/

theorem word_get (w : Word) {k : Nat} (hk : k < 64) : ((w &&& (1#64 <<< k)) != 0) = w.getLsbD k := by
  rw [Bool.eq_iff_iff, bne_iff_ne]
  constructor
  · intro h
    by_contra hc
    refine h (BitVec.eq_of_getLsbD_eq fun i hi => ?_)
    rw [BitVec.getLsbD_and, BitVec.getLsbD_shiftLeft]
    by_cases e : i = k
    · subst e; simp only [Bool.not_eq_true] at hc; simp [hc]
    · by_cases hik : i < k
      · simp [hik]
      · have : i - k ≠ 0 := by omega
        simp [BitVec.getLsbD_one, this]
  · intro h e
    have : (w &&& 1#64 <<< k).getLsbD k = (0 : Word).getLsbD k := by rw [e]
    rw [BitVec.getLsbD_and, BitVec.getLsbD_shiftLeft] at this
    simp [h, hk] at this
    rw [← BitVec.getLsbD_eq_getElem, h] at this
    cases this

theorem word_set (w : Word) {k i : Nat} (hk : k < 64) : (w ||| (1#64 <<< k)).getLsbD i = (w.getLsbD i || decide (i = k)) := by
  rw [BitVec.getLsbD_or, BitVec.getLsbD_shiftLeft]
  congr 1
  by_cases e : i = k
  · subst e; simp [hk]
  · by_cases hik : i < k
    · simp [hik, e]
    · have : i - k ≠ 0 := by omega
      simp [BitVec.getLsbD_one, this, e]

theorem word_ne {w : Word} : w ≠ 0 ↔ ∃ k < 64, w.getLsbD k = true := by
  constructor
  · intro h
    by_contra hc
    push_neg at hc
    exact h (BitVec.eq_of_getLsbD_eq fun i hi => by simpa using hc i hi)
  · rintro ⟨k, _, h⟩ rfl
    simp at h

theorem find_range {p : Nat → Bool} : ∀ {n : Nat}, (∃ k < n, p k = true) →
    ∃ t < n, (List.range n).find? p = some t ∧ p t = true ∧ ∀ j < t, p j = false := by
  intro n ⟨k, hk, hp⟩
  cases h : (List.range n).find? p with
  | none => rw [List.find?_eq_none] at h; exact absurd hp (h k (List.mem_range.2 hk))
  | some t =>
    rw [List.find?_range_eq_some] at h
    exact ⟨t, List.mem_range.1 h.2.1, rfl, h.1, fun j hj => by simpa using h.2.2 j hj⟩

theorem trailing_spec {w : Word} (h : w ≠ 0) : trailing w < 64 ∧ w.getLsbD (trailing w) = true ∧ ∀ j < trailing w, w.getLsbD j = false := by
  obtain ⟨t, h1, h2, h3, h4⟩ := find_range (word_ne.1 h)
  unfold trailing
  rw [h2]
  exact ⟨h1, h3, h4⟩

theorem leading_spec {w : Word} (h : w ≠ 0) : leading w < 64 ∧ w.getLsbD (63 - leading w) = true ∧ ∀ j, 63 - leading w < j → w.getLsbD j = false := by
  obtain ⟨k, hk, hw⟩ := word_ne.1 h
  obtain ⟨t, h1, h2, h3, h4⟩ := find_range (p := fun i => w.getLsbD (63 - i)) (n := 64) ⟨63 - k, by omega, by rw [show 63 - (63 - k) = k by omega]; exact hw⟩
  unfold leading
  rw [h2]
  refine ⟨h1, h3, fun j hj => ?_⟩
  simp only [Option.getD_some] at hj
  by_cases h6 : j < 64
  · have := h4 (63 - j) (by omega)
    rwa [show 63 - (63 - j) = j by omega] at this
  · exact BitVec.getLsbD_of_ge w j (by omega)

/-! ## members -/

/-- the bit `k` of the word `i` -/
def bit (ws : List Word) (i k : Nat) : Bool := match ws[i]? with
  | none => false
  | some w => w.getLsbD k

theorem get_eq (b : B) (i : Nat) : get b i = bit b.words (i / 64) (i % 64) := by
  unfold get bit
  cases b.words[i / 64]? with
  | none => rfl
  | some w => exact word_get w (Nat.mod_lt _ (by omega))

theorem ensureWords_bit (b : B) (n i k : Nat) : bit (ensureWords b n).words i k = bit b.words i k := by
  unfold ensureWords
  split
  · rfl
  · unfold bit
    by_cases h : i < b.words.length
    · rw [List.getElem?_append_left h]
    · rw [List.getElem?_append_right (by omega), List.getElem?_replicate, List.getElem?_eq_none (by omega)]
      split
      · rfl
      · rename_i w he
        split at he
        · cases he; simp
        · cases he

theorem ensureWords_length (b : B) (n : Nat) : (ensureWords b n).words.length = max b.words.length n := by
  unfold ensureWords
  split
  · omega
  · simp; omega

/-- the bit `i` of a list of words -/
def fl (ws : List Word) (i : Nat) : Bool := bit ws (i / 64) (i % 64)

theorem get_fl (b : B) (i : Nat) : get b i = fl b.words i := get_eq b i

theorem fl_nil (i : Nat) : fl [] i = false := by simp [fl, bit]

theorem fl_cons (w : Word) (ws : List Word) (i : Nat) : fl (w :: ws) i = if i < 64 then w.getLsbD i else fl ws (i - 64) := by
  unfold fl
  split
  · rename_i h
    rw [Nat.div_eq_of_lt h, Nat.mod_eq_of_lt h]; rfl
  · rename_i h
    obtain ⟨j, rfl⟩ : ∃ j, i = j + 64 := ⟨i - 64, by omega⟩
    rw [Nat.add_div_right _ (by omega), Nat.add_mod_right, Nat.add_sub_cancel]
    rfl

theorem fl_lt {ws : List Word} {i : Nat} (h : fl ws i = true) : i < 64 * ws.length := by
  by_contra hc
  unfold fl bit at h
  rw [List.getElem?_eq_none (by omega)] at h
  cases h

theorem fl_add (ws : List Word) (i k : Nat) (hk : k < 64) : fl ws (i * 64 + k) = bit ws i k := by
  unfold fl
  rw [show (i * 64 + k) / 64 = i by omega, show (i * 64 + k) % 64 = k by omega]

theorem ext_fl : ∀ {a b : List Word}, a.length = b.length → (∀ i, fl a i = fl b i) → a = b
  | [], [], _, _ => rfl
  | w :: ws, x :: xs, hl, h => by
    have e1 : w = x := BitVec.eq_of_getLsbD_eq fun i hi => by have := h i; rw [fl_cons, fl_cons, if_pos hi, if_pos hi] at this; exact this
    have e2 : ws = xs := ext_fl (by simpa using hl) fun i => by
      have := h (i + 64)
      rwa [fl_cons, fl_cons, if_neg (by omega), if_neg (by omega), Nat.add_sub_cancel] at this
    rw [e1, e2]

/-! ## counting -/

theorem countP_range_add (p : Nat → Bool) (a b : Nat) : (List.range (a + b)).countP p = (List.range a).countP p + (List.range b).countP fun i => p (a + i) := by
  rw [List.range_add, List.countP_append, List.countP_map]; rfl

theorem card_count : ∀ ws : List Word, (ws.map ones).sum = (List.range (64 * ws.length)).countP (fl ws)
  | [] => rfl
  | w :: ws => by
    rw [List.map_cons, List.sum_cons, card_count ws, List.length_cons, show 64 * (ws.length + 1) = 64 + 64 * ws.length by ring, countP_range_add]
    refine congrArg₂ (· + ·) ?_ ?_
    · exact List.countP_congr fun i hi => by rw [fl_cons, if_pos (List.mem_range.1 hi)]
    · exact List.countP_congr fun i hi => by rw [fl_cons, if_neg (show ¬64 + i < 64 by omega), Nat.add_sub_cancel_left]

/-! ## the next member -/

/-- `r` is the least number from `i` on with `p` -/
def Least (p : Nat → Bool) (i : Nat) : Option Nat → Prop
  | none => ∀ j, i ≤ j → p j = false
  | some j => i ≤ j ∧ p j = true ∧ ∀ k, i ≤ k → k < j → p k = false

theorem nextLoop_least : ∀ (ws : List Word) (i : Nat) (p : Nat → Bool), (∀ j, p (i * 64 + j) = fl ws j) → Least p (i * 64) (nextLoop i ws)
  | [], i, p, h => by
    intro j hj
    have := h (j - i * 64)
    rwa [Nat.add_sub_cancel' hj, fl_nil] at this
  | w :: ws, i, p, h => by
    have hp : ∀ k, i * 64 ≤ k → k < i * 64 + 64 → p k = w.getLsbD (k - i * 64) := fun k h1 h2 => by
      have := h (k - i * 64)
      rwa [Nat.add_sub_cancel' h1, fl_cons, if_pos (by omega)] at this
    unfold nextLoop
    split
    · rename_i hw
      obtain ⟨t1, t2, t3⟩ := trailing_spec hw
      refine ⟨by omega, ?_, fun k h1 h2 => ?_⟩
      · rw [hp _ (by omega) (by omega), Nat.add_sub_cancel_left]; exact t2
      · rw [hp _ h1 (by omega)]; exact t3 _ (by omega)
    · rename_i hw
      have hw : w = 0 := by simpa using hw
      have hz : ∀ k, i * 64 ≤ k → k < (i + 1) * 64 → p k = false := fun k h1 h2 => by
        rw [hp k h1 (by omega), hw]; simp
      have ih := nextLoop_least ws (i + 1) p fun j => by
        have := h (64 + j)
        rwa [fl_cons, if_neg (by omega), Nat.add_sub_cancel_left, show i * 64 + (64 + j) = (i + 1) * 64 + j by ring] at this
      cases e : nextLoop (i + 1) ws with
      | none =>
        rw [e] at ih
        intro j hj
        by_cases h1 : j < (i + 1) * 64
        · exact hz j hj h1
        · exact ih j (by omega)
      | some r =>
        rw [e] at ih
        refine ⟨by have := ih.1; omega, ih.2.1, fun k h1 h2 => ?_⟩
        by_cases h3 : k < (i + 1) * 64
        · exact hz k h1 h3
        · exact ih.2.2 k (by omega) h2

theorem mask_get (w : Word) {k i : Nat} (hi : i < 64) : (w &&& (BitVec.allOnes 64 <<< k)).getLsbD i = (decide (k ≤ i) && w.getLsbD i) := by
  rw [BitVec.getLsbD_and, BitVec.getLsbD_shiftLeft, BitVec.getLsbD_allOnes]
  by_cases h : i < k
  · simp [h]
  · have h1 : k ≤ i := by omega
    have h2 : i - k < 64 := by omega
    simp [h, h1, h2, hi]

theorem fl_drop (ws : List Word) (n j : Nat) : fl (ws.drop n) j = fl ws (n * 64 + j) := by
  unfold fl bit
  rw [List.getElem?_drop, show (n * 64 + j) / 64 = n + j / 64 by omega, show (n * 64 + j) % 64 = j % 64 by omega]

theorem next_least (b : B) (i : Nat) : Least (get b) i (nextSetBit b i) := by
  unfold nextSetBit
  cases e : b.words[i / 64]? with
  | none =>
    intro j hj
    rw [List.getElem?_eq_none_iff] at e
    by_contra hc
    rw [get_fl, Bool.not_eq_false] at hc
    have := fl_lt hc
    omega
  | some w =>
    have hb : ∀ k, i / 64 * 64 ≤ k → k < i / 64 * 64 + 64 → get b k = w.getLsbD (k - i / 64 * 64) := fun k h1 h2 => by
      obtain ⟨c, rfl⟩ := Nat.exists_eq_add_of_le h1
      rw [get_fl, fl_add _ _ _ (by omega), Nat.add_sub_cancel_left, bit, e]
    dsimp only
    split
    · rename_i hw
      obtain ⟨t1, t2, t3⟩ := trailing_spec hw
      rw [mask_get _ t1, Bool.and_eq_true, decide_eq_true_eq] at t2
      refine ⟨by omega, ?_, fun k h1 h2 => ?_⟩
      · rw [hb _ (by omega) (by omega), Nat.add_sub_cancel_left]; exact t2.2
      · rw [hb _ (by omega) (by omega)]
        have := t3 (k - i / 64 * 64) (by omega)
        rw [mask_get _ (by omega), decide_eq_true (by omega), Bool.true_and] at this
        exact this
    · rename_i hw
      have hz : ∀ k, i ≤ k → k < (i / 64 + 1) * 64 → get b k = false := fun k h1 h2 => by
        rw [hb _ (by omega) (by omega)]
        by_contra hc
        rw [Bool.not_eq_false] at hc
        refine hw (word_ne.2 ⟨k - i / 64 * 64, by omega, ?_⟩)
        rw [mask_get _ (by omega), hc, Bool.and_true, decide_eq_true_eq]
        omega
      have ih := nextLoop_least (b.words.drop (i / 64 + 1)) (i / 64 + 1) (get b) fun j => by rw [get_fl, fl_drop]
      cases e : nextLoop (i / 64 + 1) (b.words.drop (i / 64 + 1)) with
      | none =>
        rw [e] at ih
        intro j hj
        by_cases h1 : j < (i / 64 + 1) * 64
        · exact hz j hj h1
        · exact ih j (by omega)
      | some r =>
        rw [e] at ih
        refine ⟨by have := ih.1; omega, ih.2.1, fun k h1 h2 => ?_⟩
        by_cases h3 : k < (i / 64 + 1) * 64
        · exact hz k h1 h3
        · exact ih.2.2 k (by omega) h2

/-! ## the array -/

theorem range'_split {i j N : Nat} (h1 : i ≤ j) (h2 : j < N) : List.range' i (N - i) = List.range' i (j - i) ++ j :: List.range' (j + 1) (N - (j + 1)) := by
  have e : j :: List.range' (j + 1) (N - (j + 1)) = List.range' j (N - j) := by
    rw [show N - j = (N - (j + 1)) + 1 by omega, List.range'_succ]
  rw [e, show N - i = (j - i) + (N - j) by omega]
  have := List.range'_append (s := i) (m := j - i) (n := N - j) (step := 1)
  rw [one_mul, Nat.add_sub_cancel' h1] at this
  exact this.symm

theorem toArrayLoop_eq (b : B) : ∀ (n i : Nat), ((List.range' i (64 * b.words.length - i)).filter (get b)).length = n →
    toArrayLoop b n i = some ((List.range' i (64 * b.words.length - i)).filter (get b))
  | n, i, hn => by
    have hl := next_least b i
    unfold toArrayLoop
    cases e : nextSetBit b i with
    | none =>
      rw [e] at hl
      have : (List.range' i (64 * b.words.length - i)).filter (get b) = [] := by
        rw [List.filter_eq_nil_iff]
        intro j hj
        rw [hl j (List.mem_range'_1.1 hj).1]; simp
      rw [this] at hn ⊢
      subst hn
      rfl
    | some j =>
      rw [e] at hl
      obtain ⟨h1, h2, h3⟩ := hl
      have hj : j < 64 * b.words.length := fl_lt (by rw [← get_fl]; exact h2)
      have hf : (List.range' i (64 * b.words.length - i)).filter (get b) = j :: (List.range' (j + 1) (64 * b.words.length - (j + 1))).filter (get b) := by
        rw [range'_split h1 hj, List.filter_append, List.filter_cons_of_pos h2]
        have : (List.range' i (j - i)).filter (get b) = [] := by
          rw [List.filter_eq_nil_iff]
          intro k hk
          have := List.mem_range'_1.1 hk
          rw [h3 k this.1 (by omega)]; simp
        rw [this]; rfl
      rw [hf] at hn ⊢
      match n, hn with
      | n + 1, hn =>
        dsimp only
        rw [toArrayLoop_eq b n (j + 1) (by simpa using hn)]
        rfl

/-! ## the slice -/

theorem maxBit_spec : ∀ (ws : List Word) (i : Nat), fl ws i = true → i ≤ maxBit ws.reverse := by
  intro ws
  induction ws using List.reverseRecOn with
  | nil => intro i h; rw [fl_nil] at h; cases h
  | append_singleton ws w ih =>
    intro i h
    rw [List.reverse_append, List.reverse_singleton, List.singleton_append, maxBit]
    have hb : ws.length * 64 ≤ i → i < ws.length * 64 + 64 → w.getLsbD (i - ws.length * 64) = true := fun h1 h2 => by
      obtain ⟨c, rfl⟩ := Nat.exists_eq_add_of_le h1
      rw [fl_add _ _ _ (by omega), bit, List.getElem?_append_right (le_refl _)] at h
      simpa using h
    have hlt := fl_lt h
    simp only [List.length_append, List.length_singleton] at hlt
    split
    · rename_i hw
      obtain ⟨l1, l2, l3⟩ := leading_spec hw
      rw [List.length_reverse]
      by_cases h1 : i < ws.length * 64
      · omega
      · have := hb (by omega) (by omega)
        by_contra hc
        rw [l3 _ (by omega)] at this
        cases this
    · rename_i hw
      have hw : w = 0 := by simpa using hw
      by_cases h1 : i < ws.length * 64
      · refine ih i ?_
        unfold fl bit at h ⊢
        rwa [List.getElem?_append_left (by omega)] at h
      · have := hb (by omega) (by omega)
        rw [hw] at this
        simp at this

/-! ## comparison -/

/-- the least difference of `p` and `q` is in `p` -/
def Above (p q : Nat → Bool) : Prop := ∃ j, p j = true ∧ q j = false ∧ ∀ k < j, p k = q k

theorem xor_get (a b : Word) (i : Nat) : (a ^^^ b).getLsbD i = (a.getLsbD i != b.getLsbD i) := by
  rw [BitVec.getLsbD_xor]

theorem compLoop_spec : ∀ (a b : List Word), a.length = b.length →
    (compLoop a b = 1 ∧ Above (fl a) (fl b)) ∨ (compLoop a b = -1 ∧ Above (fl b) (fl a)) ∨ (compLoop a b = 0 ∧ a = b)
  | [], [], _ => .inr (.inr ⟨rfl, rfl⟩)
  | w :: ws, x :: xs, hl => by
    unfold compLoop
    split
    · rename_i e
      subst e
      have up : ∀ {p q : List Word}, Above (fl p) (fl q) → Above (fl (w :: p)) (fl (w :: q)) := by
        rintro p q ⟨j, h1, h2, h3⟩
        refine ⟨j + 64, ?_, ?_, fun k hk => ?_⟩
        · rw [fl_cons, if_neg (by omega), Nat.add_sub_cancel]; exact h1
        · rw [fl_cons, if_neg (by omega), Nat.add_sub_cancel]; exact h2
        · rw [fl_cons, fl_cons]
          split
          · rfl
          · exact h3 _ (by omega)
      rcases compLoop_spec ws xs (by simpa using hl) with ⟨h, h'⟩ | ⟨h, h'⟩ | ⟨h, h'⟩
      · exact .inl ⟨h, up h'⟩
      · exact .inr (.inl ⟨h, up h'⟩)
      · exact .inr (.inr ⟨h, by rw [h']⟩)
    · rename_i hne
      have hx : w ^^^ x ≠ 0 := by
        intro h
        refine hne (BitVec.eq_of_getLsbD_eq fun i _ => ?_)
        have := xor_get w x i
        rw [h] at this
        revert this
        cases w.getLsbD i <;> cases x.getLsbD i <;> simp
      obtain ⟨t1, t2, t3⟩ := trailing_spec hx
      rw [word_get _ t1]
      rw [xor_get, bne_iff_ne] at t2
      have hlow : ∀ k < trailing (w ^^^ x), w.getLsbD k = x.getLsbD k := fun k hk => by
        have := t3 k hk
        rw [xor_get] at this
        simpa using this
      split
      · rename_i h
        refine .inl ⟨rfl, trailing (w ^^^ x), ?_, ?_, fun k hk => ?_⟩
        · rw [fl_cons, if_pos t1, h]
        · rw [fl_cons, if_pos t1]; revert t2; rw [h]; cases x.getLsbD (trailing (w ^^^ x)) <;> simp
        · rw [fl_cons, fl_cons, if_pos (by omega), if_pos (by omega), hlow k hk]
      · rename_i h
        rw [Bool.not_eq_true] at h
        refine .inr (.inl ⟨rfl, trailing (w ^^^ x), ?_, ?_, fun k hk => ?_⟩)
        · rw [fl_cons, if_pos t1]; revert t2; rw [h]; cases x.getLsbD (trailing (w ^^^ x)) <;> simp
        · rw [fl_cons, if_pos t1, h]
        · rw [fl_cons, fl_cons, if_pos (by omega), if_pos (by omega), hlow k hk]

theorem Above.asymm {p q : Nat → Bool} (h : Above p q) : ¬Above q p := by
  obtain ⟨j, h1, h2, h3⟩ := h
  rintro ⟨i, g1, g2, g3⟩
  rcases lt_trichotomy i j with h | rfl | h
  · rw [h3 i h, g1] at g2; cases g2
  · rw [h1] at g2; cases g2
  · rw [g3 j h, h1] at h2; cases h2

theorem Above.trans {p q r : Nat → Bool} (h : Above p q) (g : Above q r) : Above p r := by
  obtain ⟨j, h1, h2, h3⟩ := h
  obtain ⟨i, g1, g2, g3⟩ := g
  rcases lt_trichotomy i j with h | rfl | h
  · exact ⟨i, by rw [h3 i h, g1], g2, fun k hk => by rw [h3 k (by omega), g3 k hk]⟩
  · rw [h2] at g1; cases g1
  · exact ⟨j, h1, by rw [← g3 j h, h2], fun k hk => by rw [h3 k hk, g3 k (by omega)]⟩

theorem Above.ne {p q : Nat → Bool} (h : Above p q) : p ≠ q := by
  rintro rfl; exact h.asymm h

/-! ## the properties -/

/-- **C63**: a new set is empty -/
theorem C63_new (n i : Nat) : get (new n) i = false := by
  rw [get_fl, fl, bit, new, List.getElem?_replicate]
  split
  · rfl
  · rename_i w h
    split at h
    · cases h; simp
    · cases h

/-- **C63**: `set` adds exactly the index -/
theorem C63_set (b : B) (i j : Nat) : get (set b i) j = (get b j || decide (j = i)) := by
  have key : ∀ c : B, i / 64 < c.words.length → get ⟨c.words.modify (i / 64) fun w => w ||| (1#64 <<< (i % 64))⟩ j = (get c j || decide (j = i)) := by
    intro c hc
    rw [get_eq, get_eq, bit, bit, List.getElem?_modify]
    by_cases hw : i / 64 = j / 64
    · rw [← hw, List.getElem?_eq_getElem hc]
      simp only [if_true, Option.map_eq_map, Option.map_some]
      rw [word_set _ (Nat.mod_lt _ (by omega))]
      congr 1
      rw [decide_eq_decide]
      omega
    · simp only [if_neg hw]
      have : decide (j = i) = false := decide_eq_false (by rintro rfl; exact hw rfl)
      rw [this, Bool.or_false]
      cases c.words[j / 64]? <;> rfl
  unfold set
  dsimp only
  split
  · rename_i h
    rw [key _ (by unfold ensureSize; rw [ensureWords_length]; omega)]
    unfold ensureSize
    rw [get_eq, ensureWords_bit, ← get_eq]
  · exact key b (by omega)

/-- **C63**: `or` is the union -/
theorem C63_or (a b : B) (i : Nat) : get (or a b) i = (get a i || get b i) := by
  rw [get_eq, get_eq a, get_eq b, ← ensureWords_bit a b.words.length, or, bit, bit, bit, List.getElem?_map, List.getElem?_zipIdx]
  cases e : (ensureWords a b.words.length).words[i / 64]? with
  | none =>
    rw [List.getElem?_eq_none_iff, ensureWords_length] at e
    rw [List.getElem?_eq_none (by omega)]
    rfl
  | some w =>
    simp only [Option.map_some, Nat.zero_add]
    cases b.words[i / 64]? with
    | none => simp
    | some x => simp

/-- **C63**: `and` is the intersection -/
theorem C63_and (a b : B) (i : Nat) : get (and a b) i = (get a i && get b i) := by
  rw [get_eq, get_eq a, get_eq b, and, bit, bit, bit, List.getElem?_map, List.getElem?_zipIdx]
  cases a.words[i / 64]? with
  | none => rfl
  | some w =>
    simp only [Option.map_some, Nat.zero_add]
    cases b.words[i / 64]? with
    | none => simp
    | some x => simp

/-- **C63**: `clear` leaves the empty set -/
theorem C63_clear (b : B) (i : Nat) : get (clear b) i = false := by
  rw [get_eq, clear, bit, List.getElem?_map]
  cases b.words[i / 64]? with
  | none => rfl
  | some w => simp

/-- **C63**: `cardinality` is the number of members -/
theorem C63_cardinality (b : B) (s : Finset Nat) (h : ∀ i, i ∈ s ↔ get b i = true) : cardinality b = s.card := by
  have : s = ((List.range (64 * b.words.length)).filter (get b)).toFinset := by
    ext i
    rw [h, List.mem_toFinset, List.mem_filter, List.mem_range]
    exact ⟨fun hi => ⟨fl_lt (by rw [← get_fl]; exact hi), hi⟩, fun hi => hi.2⟩
  rw [this, List.toFinset_card_of_nodup (List.nodup_range.filter _), ← List.countP_eq_length_filter, cardinality, card_count]
  exact List.countP_congr fun i _ => by rw [get_fl]

/-- **C63**: `nextSetBit` is the least member from the index on, `-1` if there is none -/
theorem C63_next (b : B) (i : Nat) :
    (∀ j, nextSetBit b i = some j ↔ IsLeast {k | i ≤ k ∧ get b k = true} j) ∧ (nextSetBit b i = none ↔ ∀ k, i ≤ k → get b k = false) := by
  have hl := next_least b i
  cases e : nextSetBit b i with
  | none =>
    rw [e] at hl
    refine ⟨fun j => ⟨fun h => (by cases h), fun h => ?_⟩, ⟨fun _ => hl, fun _ => rfl⟩⟩
    have := hl j h.1.1
    rw [h.1.2] at this
    cases this
  | some r =>
    rw [e] at hl
    have hr : IsLeast {k | i ≤ k ∧ get b k = true} r := ⟨⟨hl.1, hl.2.1⟩, fun k hk => by
      by_contra hc
      have := hl.2.2 k hk.1 (by omega)
      rw [hk.2] at this
      cases this⟩
    refine ⟨fun j => ⟨fun h => (by cases h; exact hr), fun h => (by rw [IsLeast.unique hr h])⟩, ⟨fun h => (by cases h), fun h => ?_⟩⟩
    have := h r hl.1
    rw [hl.2.1] at this
    cases this

/-- **C63**: `toArray` does not run out of its slice and returns the members in ascending order, each once -/
theorem C63_array (b : B) : ∃ l, toArray b = some l ∧ l.Pairwise (· < ·) ∧ ∀ i, i ∈ l ↔ get b i = true := by
  refine ⟨_, toArrayLoop_eq b (cardinality b) 0 ?_, ?_, fun i => ?_⟩
  · rw [← List.countP_eq_length_filter, cardinality, card_count, Nat.sub_zero, ← List.range_eq_range']
    exact List.countP_congr fun i _ => by rw [get_fl]
  · rw [Nat.sub_zero, ← List.range_eq_range']
    exact List.pairwise_lt_range.filter _
  · rw [Nat.sub_zero, ← List.range_eq_range', List.mem_filter, List.mem_range]
    exact ⟨fun hi => hi.2, fun hi => ⟨fl_lt (by rw [← get_fl]; exact hi), hi⟩⟩

/-- **C63**: the slice of booleans, false beyond its end (as compiler.go reads it), is the set -/
theorem C63_slice (b : B) (i : Nat) : (toBoolSlice b)[i]?.getD false = get b i := by
  unfold toBoolSlice
  split
  · rename_i h
    rw [get_fl, h, fl_nil]; rfl
  · rw [List.getElem?_map]
    by_cases h : i < maxBit b.words.reverse + 1
    · rw [List.getElem?_range h]; rfl
    · rw [List.getElem?_eq_none (by simpa using h)]
      by_contra hc
      have := maxBit_spec b.words i (by rw [← get_fl]; cases hg : get b i <;> simp_all)
      omega

/-- **C63**: the comparison of sets of the same length is decided by the least index in which they differ, and is 0 only for the same set -/
theorem C63_comp (a b : B) (h : a.words.length = b.words.length) :
    (comp a b = 1 ↔ ∃ j, get a j = true ∧ get b j = false ∧ ∀ k < j, get a k = get b k) ∧
    (comp a b = -1 ↔ ∃ j, get b j = true ∧ get a j = false ∧ ∀ k < j, get b k = get a k) ∧
    (comp a b = 0 ↔ ∀ i, get a i = get b i) := by
  simp only [get_fl]
  have hA : ∀ p q : Nat → Bool, (∃ j, p j = true ∧ q j = false ∧ ∀ k < j, p k = q k) ↔ Above p q := fun _ _ => Iff.rfl
  rw [hA, hA, comp, if_neg (by omega), if_neg (by omega)]
  rcases compLoop_spec a.words b.words h with ⟨e, g⟩ | ⟨e, g⟩ | ⟨e, g⟩
  · rw [e]; exact ⟨⟨fun _ => g, fun _ => rfl⟩, ⟨fun h => absurd h (by decide), fun h => absurd h g.asymm⟩, ⟨fun h => absurd h (by decide), fun h => absurd (funext h) g.ne⟩⟩
  · rw [e]; exact ⟨⟨fun h => absurd h (by decide), fun h => absurd h g.asymm⟩, ⟨fun _ => g, fun _ => rfl⟩, ⟨fun h => absurd h (by decide), fun h => absurd (funext h).symm g.ne⟩⟩
  · rw [e, g]; exact ⟨⟨fun h => absurd h (by decide), fun h => absurd rfl (Above.ne h)⟩, ⟨fun h => absurd h (by decide), fun h => absurd rfl (Above.ne h)⟩, ⟨fun _ _ => rfl, fun _ => rfl⟩⟩

/-- **C63**: the comparison is a total order of the sets with their lengths, as the ordered map of the cache requires -/
theorem C63_comp_order : (∀ a b, comp a b = 0 ↔ a = b) ∧ (∀ a b, comp b a = -comp a b) ∧ (∀ a b c, comp a b ≤ 0 → comp b c ≤ 0 → comp a c ≤ 0) := by
  have key : ∀ a b : B, (comp a b = 1 ∧ (b.words.length < a.words.length ∨ a.words.length = b.words.length ∧ Above (fl a.words) (fl b.words))) ∨
      (comp a b = -1 ∧ (a.words.length < b.words.length ∨ a.words.length = b.words.length ∧ Above (fl b.words) (fl a.words))) ∨ (comp a b = 0 ∧ a = b) := by
    intro a b
    unfold comp
    split
    · rename_i h; exact .inr (.inl ⟨rfl, .inl h⟩)
    · split
      · rename_i h; exact .inl ⟨rfl, .inl h⟩
      · have hl : a.words.length = b.words.length := by omega
        rcases compLoop_spec a.words b.words hl with ⟨e, g⟩ | ⟨e, g⟩ | ⟨e, g⟩
        · exact .inl ⟨e, .inr ⟨hl, g⟩⟩
        · exact .inr (.inl ⟨e, .inr ⟨hl, g⟩⟩)
        · exact .inr (.inr ⟨e, by cases a; cases b; cases g; rfl⟩)
  have asym : ∀ a b : B, (b.words.length < a.words.length ∨ a.words.length = b.words.length ∧ Above (fl a.words) (fl b.words)) →
      ¬(a.words.length < b.words.length ∨ a.words.length = b.words.length ∧ Above (fl b.words) (fl a.words)) := by
    rintro a b (h | ⟨h, g⟩) (h' | ⟨h', g'⟩)
    · omega
    · omega
    · omega
    · exact g.asymm g'
  have irr : ∀ a : B, ¬(a.words.length < a.words.length ∨ a.words.length = a.words.length ∧ Above (fl a.words) (fl a.words)) := by
    rintro a (h | ⟨_, h⟩)
    · omega
    · exact h.ne rfl
  have tr : ∀ a b c : B, (a.words.length < b.words.length ∨ a.words.length = b.words.length ∧ Above (fl b.words) (fl a.words)) →
      (b.words.length < c.words.length ∨ b.words.length = c.words.length ∧ Above (fl c.words) (fl b.words)) →
      (a.words.length < c.words.length ∨ a.words.length = c.words.length ∧ Above (fl c.words) (fl a.words)) := by
    rintro a b c (h | ⟨h, g⟩) (h' | ⟨h', g'⟩)
    · exact .inl (by omega)
    · exact .inl (by omega)
    · exact .inl (by omega)
    · exact .inr ⟨by omega, g'.trans g⟩
  have flip : ∀ a b : B, (b.words.length < a.words.length ∨ a.words.length = b.words.length ∧ Above (fl a.words) (fl b.words)) ↔
      (b.words.length < a.words.length ∨ b.words.length = a.words.length ∧ Above (fl a.words) (fl b.words)) := fun a b => by rw [eq_comm (a := a.words.length)]
  refine ⟨fun a b => ⟨fun h => ?_, ?_⟩, fun a b => ?_, fun a b c h1 h2 => ?_⟩
  · rcases key a b with ⟨e, _⟩ | ⟨e, _⟩ | ⟨_, e⟩
    · rw [e] at h; cases h
    · rw [e] at h; cases h
    · exact e
  · rintro rfl
    rcases key a a with ⟨_, g⟩ | ⟨_, g⟩ | ⟨e, _⟩
    · exact absurd g (irr a)
    · exact absurd g (irr a)
    · exact e
  · rcases key a b with ⟨e, g⟩ | ⟨e, g⟩ | ⟨e, rfl⟩
    · rcases key b a with ⟨_, g'⟩ | ⟨e', _⟩ | ⟨_, rfl⟩
      · exact absurd ((flip b a).1 g') (asym a b g)
      · rw [e, e']
      · exact absurd g (irr _)
    · rcases key b a with ⟨e', _⟩ | ⟨_, g'⟩ | ⟨_, rfl⟩
      · rw [e, e']; rfl
      · exact absurd g (asym a b ((flip a b).2 g'))
      · exact absurd g (irr _)
    · rw [e]; rfl
  · rcases key a b with ⟨e, _⟩ | ⟨_, g⟩ | ⟨_, rfl⟩
    · rw [e] at h1; omega
    · rcases key b c with ⟨e, _⟩ | ⟨_, g'⟩ | ⟨_, rfl⟩
      · rw [e] at h2; omega
      · rcases key a c with ⟨_, g2⟩ | ⟨e, _⟩ | ⟨e, _⟩
        · exact absurd (tr a b c g g') (asym a c g2)
        · rw [e]; omega
        · rw [e]
      · exact h1
    · exact h2

/-- **C63** fails for the sets alone: the same members in words of different number compare as different, and the slices of two empty sets differ -/
theorem C63_length_false :
    (∃ a b : B, (∀ i, get a i = get b i) ∧ comp a b ≠ 0) ∧ (∃ a b : B, (∀ i, get a i = get b i) ∧ toBoolSlice a ≠ toBoolSlice b) :=
  ⟨⟨new 0, new 1, fun i => by rw [C63_new, C63_new], by decide⟩, ⟨new 0, new 1, fun i => by rw [C63_new, C63_new], by decide⟩⟩

/-! ## examples -/

/-- {3, 70, 130} -/
def exA : B := set (set (set (new 10) 70) 3) 130
/-- {3, 64} in as many words -/
def exB : B := or (set (set (new 0) 3) 64) (clear exA)

example : get exA 70 = true ∧ get exA 6 = false ∧ cardinality exA = 3 ∧ exA.words.length = 3 := by decide +kernel
example : nextSetBit exA 4 = some 70 ∧ nextSetBit exA 131 = none ∧ nextSetBit exA 71 = some 130 := by decide +kernel
example : toArray exA = some [3, 70, 130] ∧ toArray (or exA exB) = some [3, 64, 70, 130] ∧ toArray (and exA exB) = some [3] := by decide +kernel
example : exA.words.length = exB.words.length ∧ comp exA exB = -1 ∧ comp exB exA = 1 ∧ comp exA exA = 0 := by decide +kernel
example : (toBoolSlice exA).length = 131 ∧ (toBoolSlice exA)[70]? = some true ∧ toBoolSlice exB ≠ [] := by decide +kernel

end Verif.Bitset
