import Verif.MaxSat.Relax

/-! # Sequential weight counter (enc_swc.go) -/

namespace Verif.MaxAlg

open Verif.MaxSat (litVal clauseVal costC)

/-! ## model -/

/-- enc_swc.go:10-20 `swc`: `units` are `unitLits`/`unitCoeffs`, `lits` are `litsInc`/`coeffsInc`, `aux` is `seqAuxiliaryInc` (rows and columns counted from 1), `outs` is `pbOutlits`, `blk` is
`currentLitBlocking` -/
structure Swc where
  has : Bool := false
  units : List (Nat × Nat) := []
  lits : List (Nat × Nat) := []
  aux : Nat → Nat → Nat := fun _ _ => 0
  outs : List Nat := []
  rhs : Nat := 0
  blk : Option Nat := none

def seqA (aux : Nat → Nat → Nat) (i j : Nat) : List Nat := [neg (aux (i - 1) j), aux i j]

def seqB (aux : Nat → Nat → Nat) (l i j : Nat) : List Nat := [neg l, aux i j]

def seqC (aux : Nat → Nat → Nat) (x : Nat × Nat) (i j : Nat) : List Nat := [neg (aux (i - 1) j), neg x.1, aux i (j + x.2)]

def seqD (aux : Nat → Nat → Nat) (x : Nat × Nat) (i rhs : Nat) (blk : Option Nat) : List Nat := [neg (aux (i - 1) (rhs + 1 - x.2)), neg x.1] ++ blk.toList

/-- the loops over rows `i` and columns `j` that add clauses (enc_swc.go:86-104, 178-201, 236-260, 310-332), each clause under its own condition -/
def seqRows (aux : Nat → Nat → Nat) (xs : List (Nat × Nat)) (rhs : Nat) (blk : Option Nat) (fA fB fC : Nat → Nat → Nat → Bool) (fD : Nat → Bool) : List (List Nat) :=
  (xs.zipIdx 1).flatMap fun xi =>
    ((List.range' 1 rhs).flatMap fun j => (if fA xi.2 j xi.1.2 then [seqA aux xi.2 j] else []) ++ (if fB xi.2 j xi.1.2 then [seqB aux xi.1.1 xi.2 j] else []) ++
      (if fC xi.2 j xi.1.2 then [seqC aux xi.1 xi.2 j] else [])) ++ (if fD xi.2 then [seqD aux xi.1 xi.2 rhs blk] else [])

/-- new literals for rows `r + 1, …` and columns `c + 1, …`, row by row -/
def tab (base cols r c i j : Nat) : Nat := 2 * (base + (i - (r + 1)) * cols + (j - (c + 1)))

/-- the literals whose weights do not exceed the bound (enc_swc.go:54-61, 132-149, 278-295) -/
def small (xs : List (Nat × Nat)) (rhs : Nat) : List (Nat × Nat) := xs.filter fun x => decide (x.2 ≤ rhs)

/-- the others -/
def big (xs : List (Nat × Nat)) (rhs : Nat) : List (Nat × Nat) := xs.filter fun x => !decide (x.2 ≤ rhs)

/-- enc_swc.go:43 `encode`: the encoding, the solver, and the remaining literals (they overwrite the arguments) -/
def Swc.encode (sw : Swc) (s : Sol) (xs : List (Nat × Nat)) (rhs : Nat) : Swc × Sol × List (Nat × Nat) :=
  let small := small xs rhs
  let s := s.addAll ((big xs rhs).map fun x => [neg x.1])
  if small.length = 1 then ({ sw with has := false }, s.addAll (small.map fun x => [neg x.1]), small)
  else if small.length = 0 then ({ sw with has := false }, s, small)
  else
    let aux := tab s.n rhs 0 0
    ({ sw with has := true, rhs := rhs, outs := sw.outs ++ (List.range' 1 rhs).map (aux small.length) },
      ⟨s.n + small.length * rhs, seqRows aux small rhs none (fun i _ _ => decide (2 ≤ i)) (fun _ j w => decide (j ≤ w)) (fun i j w => decide (2 ≤ i) && decide (j + w ≤ rhs))
        (fun i => decide (2 ≤ i)) ++ s.cs⟩, small)

/-- enc_swc.go:205 `update` -/
def Swc.update (sw : Swc) (s : Sol) (rhs : Nat) : Swc × Sol :=
  ({ sw with rhs := rhs }, s.addAll (((sw.outs.take sw.rhs).drop rhs).map fun l => [neg l]))

/-- enc_swc.go:112 `encodeWithAssumptions`: the encoding, the solver, and the assumptions added -/
def Swc.encodeInc (sw : Swc) (s : Sol) (xs : List (Nat × Nat)) (rhs : Nat) : Swc × Sol × List Nat :=
  let all := sw.units ++ xs
  let small := small all rhs
  let big := big all rhs
  if small.length = 1 then ({ sw with has := false, units := big ++ small }, s, big.map fun x => neg x.1)
  else if small.length = 0 then ({ sw with has := false, units := big }, s, big.map fun x => neg x.1)
  else
    let aux := tab s.n rhs 0 0
    let blk := 2 * (s.n + small.length * rhs)
    ({ sw with has := true, units := big, lits := small, aux := aux, rhs := rhs, blk := some blk },
      ⟨s.n + small.length * rhs + 1, seqRows aux small rhs (some blk) (fun i _ _ => decide (2 ≤ i)) (fun _ j w => decide (j ≤ w))
        (fun i j w => decide (2 ≤ i) && decide (j + w ≤ rhs)) (fun i => decide (2 ≤ i)) ++ s.cs⟩, neg blk :: big.map fun x => neg x.1)

/-- enc_swc.go:212 `updateInc` -/
def Swc.updateInc (sw : Swc) (s : Sol) (rhs : Nat) : Swc × Sol :=
  let s := s.addAll (sw.blk.toList.map fun b => [b])
  let n := sw.lits.length
  let cols := rhs - sw.rhs
  let aux : Nat → Nat → Nat := fun i j => if sw.rhs < j then tab s.n cols 0 sw.rhs i j else sw.aux i j
  let blk := 2 * (s.n + n * cols)
  ({ sw with aux := aux, blk := some blk, rhs := rhs },
    ⟨s.n + n * cols + 1, seqRows aux sw.lits rhs (some blk) (fun i j _ => decide (2 ≤ i) && decide (sw.rhs + 1 ≤ j)) (fun _ _ _ => false)
      (fun i j w => decide (2 ≤ i) && decide (j + w ≤ rhs) && decide (sw.rhs + 1 ≤ j + w)) (fun i => decide (2 ≤ i)) ++ s.cs⟩)

/-- enc_swc.go:265 `join` -/
def Swc.join (sw : Swc) (s : Sol) (xs : List (Nat × Nat)) : Swc × Sol :=
  let all := sw.units ++ xs
  let small := small all sw.rhs
  let big := big all sw.rhs
  let n := sw.lits.length
  if small = [] then ({ sw with units := big }, s)
  else
    let aux : Nat → Nat → Nat := fun i j => if n < i then tab s.n sw.rhs n 0 i j else sw.aux i j
    ({ sw with units := big, lits := sw.lits ++ small, aux := aux },
      ⟨s.n + small.length * sw.rhs, seqRows aux (sw.lits ++ small) sw.rhs sw.blk (fun i _ _ => decide (n ≤ i)) (fun i j w => decide (n ≤ i) && decide (j ≤ w))
        (fun i j w => decide (n ≤ i) && decide (j + w ≤ sw.rhs)) (fun i => decide (n < i)) ++ s.cs⟩)

/-- encoder.go:66-73 `incUpdatePB`, `incUpdatePBAssumptions` (enc_swc.go:36) -/
def Swc.incUpdate (sw : Swc) (s : Sol) (xs : List (Nat × Nat)) (rhs : Nat) : Swc × Sol × List Nat :=
  let u := sw.updateInc s rhs
  let j := u.1.join u.2 xs
  (j.1, j.2, (j.1.blk.toList.map neg) ++ j.1.units.map fun x => neg x.1)

/-! ## the clauses -/

theorem mem_seqRows {aux : Nat → Nat → Nat} {xs : List (Nat × Nat)} {rhs : Nat} {blk : Option Nat} {fA fB fC : Nat → Nat → Nat → Bool} {fD : Nat → Bool} {c : List Nat} :
    c ∈ seqRows aux xs rhs blk fA fB fC fD ↔ ∃ i x, 1 ≤ i ∧ xs[i - 1]? = some x ∧
      ((∃ j, 1 ≤ j ∧ j ≤ rhs ∧ ((fA i j x.2 = true ∧ c = seqA aux i j) ∨ (fB i j x.2 = true ∧ c = seqB aux x.1 i j) ∨ (fC i j x.2 = true ∧ c = seqC aux x i j))) ∨
        (fD i = true ∧ c = seqD aux x i rhs blk)) := by
  unfold seqRows
  rw [List.mem_flatMap]
  have mi : ∀ {b : Bool} {d : List Nat}, c ∈ (if b then [d] else []) ↔ b = true ∧ c = d := by intro b d; cases b <;> simp
  constructor
  · rintro ⟨⟨x, i⟩, hx, hc⟩
    have hx := List.mem_zipIdx hx
    obtain ⟨h1, h2, h3⟩ := hx
    refine ⟨i, x, h1, by rw [h3]; exact List.getElem?_eq_getElem _, ?_⟩
    rcases List.mem_append.1 hc with hc | hc
    · obtain ⟨j, hj, hc⟩ := List.mem_flatMap.1 hc
      rw [List.mem_range'_1] at hj
      refine .inl ⟨j, hj.1, by omega, ?_⟩
      rw [List.mem_append, List.mem_append, mi, mi, mi] at hc
      rcases hc with (hc | hc) | hc
      · exact .inl hc
      · exact .inr (.inl hc)
      · exact .inr (.inr hc)
    · exact .inr (mi.1 hc)
  · rintro ⟨i, x, h1, h2, h3⟩
    obtain ⟨h4, h5⟩ := List.getElem?_eq_some_iff.1 h2
    refine ⟨(x, i), List.mk_mem_zipIdx_iff_le_and_getElem?_sub.2 ⟨h1, h2⟩, ?_⟩
    · rw [List.mem_append]
      rcases h3 with ⟨j, hj1, hj2, h3⟩ | h3
      · refine .inl (List.mem_flatMap.2 ⟨j, List.mem_range'_1.2 ⟨hj1, by omega⟩, ?_⟩)
        rw [List.mem_append, List.mem_append, mi, mi, mi]
        rcases h3 with h3 | h3 | h3
        · exact .inl (.inl h3)
        · exact .inl (.inr h3)
        · exact .inr h3
      · exact .inr (mi.2 h3)

/-- weight of the true literals among the first `i` -/
def psum (u : Nat → Bool) (xs : List (Nat × Nat)) (i : Nat) : Nat := wsum u (xs.take i)

theorem psum_succ {u : Nat → Bool} {xs : List (Nat × Nat)} {i : Nat} {x : Nat × Nat} (h : xs[i]? = some x) : psum u xs (i + 1) = psum u xs i + if litVal u x.1 then x.2 else 0 := by
  unfold psum
  obtain ⟨h1, h2⟩ := List.getElem?_eq_some_iff.1 h
  rw [List.take_succ_eq_append_getElem h1, wsum_append, h2]
  obtain ⟨l, w⟩ := x
  rfl

theorem psum_zero (u : Nat → Bool) (xs : List (Nat × Nat)) : psum u xs 0 = 0 := rfl

theorem psum_all (u : Nat → Bool) (xs : List (Nat × Nat)) : psum u xs xs.length = wsum u xs := by unfold psum; rw [List.take_length]

theorem psum_mono (u : Nat → Bool) (xs : List (Nat × Nat)) (i : Nat) : psum u xs i ≤ wsum u xs := by
  unfold psum
  conv => rhs; rw [← List.take_append_drop i xs, wsum_append]
  omega

/-- the counting clauses are on the solver -/
structure SeqCov (s : Sol) (aux : Nat → Nat → Nat) (xs : List (Nat × Nat)) (rhs : Nat) : Prop where
  A : ∀ i x j, 2 ≤ i → xs[i - 1]? = some x → 1 ≤ j → j ≤ rhs → seqA aux i j ∈ s.cs
  B : ∀ i x j, 1 ≤ i → xs[i - 1]? = some x → 1 ≤ j → j ≤ rhs → j ≤ x.2 → seqB aux x.1 i j ∈ s.cs
  C : ∀ i x j, 2 ≤ i → xs[i - 1]? = some x → 1 ≤ j → j + x.2 ≤ rhs → seqC aux x i j ∈ s.cs

/-- the clauses of the bound -/
def SeqBound (s : Sol) (aux : Nat → Nat → Nat) (xs : List (Nat × Nat)) (rhs : Nat) (blk : Option Nat) : Prop := ∀ i x, 2 ≤ i → xs[i - 1]? = some x → seqD aux x i rhs blk ∈ s.cs

/-- the auxiliary literals have the values of an exact count -/
def SeqExact (u : Nat → Bool) (aux : Nat → Nat → Nat) (xs : List (Nat × Nat)) (rhs : Nat) : Prop :=
  ∀ i j, 1 ≤ i → i ≤ xs.length → 1 ≤ j → j ≤ rhs → litVal u (aux i j) = decide (j ≤ psum u xs i)

theorem seq_reach {s : Sol} {aux : Nat → Nat → Nat} {xs : List (Nat × Nat)} {rhs : Nat} (h : SeqCov s aux xs rhs) {u : Nat → Bool} (hu : s.Holds u) :
    ∀ i, 1 ≤ i → i ≤ xs.length → ∀ j, 1 ≤ j → j ≤ rhs → j ≤ psum u xs i → litVal u (aux i j) = true := by
  intro i
  induction i with
  | zero => intro h; omega
  | succ i ih =>
    intro _ hi j hj1 hj2 hj
    obtain ⟨x, hx⟩ : ∃ x, xs[i]? = some x := ⟨_, List.getElem?_eq_getElem (by omega)⟩
    rw [psum_succ hx] at hj
    have hx' : xs[i + 1 - 1]? = some x := hx
    by_cases h1 : j ≤ psum u xs i
    · have h0 : i ≠ 0 := fun e => by rw [e, psum_zero] at h1; omega
      have a := ih (by omega) (by omega) j hj1 hj2 h1
      have := hu _ (h.A (i + 1) x j (by omega) hx' hj1 hj2)
      unfold seqA at this
      obtain ⟨l, hl, ht⟩ := clauseVal_iff.1 this
      rcases List.mem_cons.1 hl with rfl | hl
      · rw [litVal_neg, Nat.add_sub_cancel, a] at ht; cases ht
      · rw [List.mem_singleton.1 hl] at ht; exact ht
    · by_cases hl : litVal u x.1 = true
      · rw [if_pos hl] at hj
        by_cases h2 : j ≤ x.2
        · have := hu _ (h.B (i + 1) x j (by omega) hx' hj1 hj2 h2)
          unfold seqB at this
          obtain ⟨l, hm, ht⟩ := clauseVal_iff.1 this
          rcases List.mem_cons.1 hm with rfl | hm
          · rw [litVal_neg, hl] at ht; cases ht
          · rw [List.mem_singleton.1 hm] at ht; exact ht
        · have h0 : i ≠ 0 := fun e => by rw [e, psum_zero] at hj; omega
          have a := ih (by omega) (by omega) (j - x.2) (by omega) (by omega) (by omega)
          have := hu _ (h.C (i + 1) x (j - x.2) (by omega) hx' (by omega) (by omega))
          unfold seqC at this
          obtain ⟨l, hm, ht⟩ := clauseVal_iff.1 this
          rcases List.mem_cons.1 hm with rfl | hm
          · rw [litVal_neg, Nat.add_sub_cancel, a] at ht; cases ht
          · rcases List.mem_cons.1 hm with rfl | hm
            · rw [litVal_neg, hl] at ht; cases ht
            · rw [List.mem_singleton.1 hm, show j - x.2 + x.2 = j by omega] at ht; exact ht
      · rw [if_neg hl] at hj; omega

/-- the clauses bound the weight -/
theorem seq_le {s : Sol} {aux : Nat → Nat → Nat} {xs : List (Nat × Nat)} {rhs : Nat} {blk : Option Nat} (h : SeqCov s aux xs rhs) (hd : SeqBound s aux xs rhs blk)
    (hx : ∀ x ∈ xs, 0 < x.2 ∧ x.2 ≤ rhs) {u : Nat → Bool} (hu : s.Holds u) (hb : ∀ b ∈ blk, litVal u b = false) : wsum u xs ≤ rhs := by
  rw [← psum_all]
  have : ∀ i, i ≤ xs.length → psum u xs i ≤ rhs := by
    intro i
    induction i with
    | zero => intro _; rw [psum_zero]; omega
    | succ i ih =>
      intro hi
      obtain ⟨x, hx1⟩ : ∃ x, xs[i]? = some x := ⟨_, List.getElem?_eq_getElem (by omega)⟩
      obtain ⟨h1, h2⟩ := hx x (List.mem_of_getElem? hx1)
      have ih := ih (by omega)
      rw [psum_succ hx1]
      by_cases hl : litVal u x.1 = true
      · rw [if_pos hl]
        by_cases h0 : i = 0
        · rw [h0, psum_zero]; omega
        · refine Classical.byContradiction fun hgt => ?_
          have a := seq_reach h hu i (by omega) (by omega) (rhs + 1 - x.2) (by omega) (by omega) (by omega)
          have := hu _ (hd (i + 1) x (by omega) hx1)
          unfold seqD at this
          obtain ⟨l, hm, ht⟩ := clauseVal_iff.1 this
          rcases List.mem_append.1 hm with hm | hm
          · rcases List.mem_cons.1 hm with rfl | hm
            · rw [litVal_neg, Nat.add_sub_cancel, a] at ht; cases ht
            · rw [List.mem_singleton.1 hm, litVal_neg, hl] at ht; cases ht
          · rw [hb l (Option.mem_toList.1 hm)] at ht; cases ht
      · rw [if_neg hl]; omega
  exact this _ (Nat.le_refl _)

theorem exact_A {u : Nat → Bool} {aux : Nat → Nat → Nat} {xs : List (Nat × Nat)} {rhs : Nat} (h : SeqExact u aux xs rhs) {i j : Nat} {x : Nat × Nat} (hi : 2 ≤ i) (hx : xs[i - 1]? = some x)
    (hj1 : 1 ≤ j) (hj2 : j ≤ rhs) : clauseVal u (seqA aux i j) = true := by
  have hl : i - 1 < xs.length := (List.getElem?_eq_some_iff.1 hx).1
  have h1 := h (i - 1) j (by omega) (by omega) hj1 hj2
  have h2 := h i j (by omega) (by omega) hj1 hj2
  have hp := psum_succ (u := u) hx
  rw [show i - 1 + 1 = i by omega] at hp
  rw [clauseVal_iff]
  unfold seqA
  by_cases hc : j ≤ psum u xs (i - 1)
  · exact ⟨aux i j, by simp, by rw [h2]; exact decide_eq_true (by omega)⟩
  · exact ⟨neg (aux (i - 1) j), by simp, by rw [litVal_neg, h1, decide_eq_false hc]; rfl⟩

theorem exact_B {u : Nat → Bool} {aux : Nat → Nat → Nat} {xs : List (Nat × Nat)} {rhs : Nat} (h : SeqExact u aux xs rhs) {i j : Nat} {x : Nat × Nat} (hi : 1 ≤ i) (hx : xs[i - 1]? = some x)
    (hj1 : 1 ≤ j) (hj2 : j ≤ rhs) (hj3 : j ≤ x.2) : clauseVal u (seqB aux x.1 i j) = true := by
  have hl : i - 1 < xs.length := (List.getElem?_eq_some_iff.1 hx).1
  have h2 := h i j (by omega) (by omega) hj1 hj2
  have hp := psum_succ (u := u) hx
  rw [show i - 1 + 1 = i by omega] at hp
  rw [clauseVal_iff]
  unfold seqB
  by_cases hc : litVal u x.1 = true
  · rw [if_pos hc] at hp
    exact ⟨aux i j, by simp, by rw [h2]; exact decide_eq_true (by omega)⟩
  · exact ⟨neg x.1, by simp, by rw [litVal_neg]; simpa using hc⟩

theorem exact_C {u : Nat → Bool} {aux : Nat → Nat → Nat} {xs : List (Nat × Nat)} {rhs : Nat} (h : SeqExact u aux xs rhs) {i j : Nat} {x : Nat × Nat} (hi : 2 ≤ i) (hx : xs[i - 1]? = some x)
    (hj1 : 1 ≤ j) (hj2 : j + x.2 ≤ rhs) : clauseVal u (seqC aux x i j) = true := by
  have hl : i - 1 < xs.length := (List.getElem?_eq_some_iff.1 hx).1
  have h1 := h (i - 1) j (by omega) (by omega) hj1 (by omega)
  have h2 := h i (j + x.2) (by omega) (by omega) (by omega) hj2
  have hp := psum_succ (u := u) hx
  rw [show i - 1 + 1 = i by omega] at hp
  rw [clauseVal_iff]
  unfold seqC
  by_cases hc : litVal u x.1 = true
  · rw [if_pos hc] at hp
    by_cases hd : j ≤ psum u xs (i - 1)
    · exact ⟨aux i (j + x.2), by simp, by rw [h2]; exact decide_eq_true (by omega)⟩
    · exact ⟨neg (aux (i - 1) j), by simp, by rw [litVal_neg, h1, decide_eq_false hd]; rfl⟩
  · exact ⟨neg x.1, by simp, by rw [litVal_neg]; simpa using hc⟩

theorem exact_D {u : Nat → Bool} {aux : Nat → Nat → Nat} {xs : List (Nat × Nat)} {rhs : Nat} {blk : Option Nat} (h : SeqExact u aux xs rhs) {i : Nat} {x : Nat × Nat} (hi : 2 ≤ i)
    (hx : xs[i - 1]? = some x) (hw : 0 < x.2 ∧ x.2 ≤ rhs) (hb : (∃ b ∈ blk, litVal u b = true) ∨ wsum u xs ≤ rhs) : clauseVal u (seqD aux x i rhs blk) = true := by
  have hl : i - 1 < xs.length := (List.getElem?_eq_some_iff.1 hx).1
  rw [clauseVal_iff]
  unfold seqD
  rcases hb with ⟨b, hb, ht⟩ | hb
  · exact ⟨b, List.mem_append_right _ (Option.mem_toList.2 hb), ht⟩
  · have h1 := h (i - 1) (rhs + 1 - x.2) (by omega) (by omega) (by omega) (by omega)
    have hp := psum_succ (u := u) hx
    rw [show i - 1 + 1 = i by omega] at hp
    have hm := psum_mono u xs i
    by_cases hc : litVal u x.1 = true
    · rw [if_pos hc] at hp
      exact ⟨neg (aux (i - 1) (rhs + 1 - x.2)), by simp, by rw [litVal_neg, h1, decide_eq_false (by omega)]; rfl⟩
    · exact ⟨neg x.1, by simp, by rw [litVal_neg]; simpa using hc⟩

/-! ## new literals -/

/-- values for a block of new variables -/
def setTab (u : Nat → Bool) (base rows cols : Nat) (g : Nat → Nat → Bool) : Nat → Bool := fun x =>
  if base ≤ x ∧ x < base + rows * cols then g ((x - base) / cols) ((x - base) % cols) else u x

theorem setTab_old {u : Nat → Bool} {base rows cols x : Nat} {g : Nat → Nat → Bool} (h : x < base) : setTab u base rows cols g x = u x := by
  unfold setTab; rw [if_neg (by omega)]

theorem setTab_new {u : Nat → Bool} {base rows cols i j : Nat} {g : Nat → Nat → Bool} (hi : i < rows) (hj : j < cols) : setTab u base rows cols g (base + i * cols + j) = g i j := by
  unfold setTab
  have h1 : (i + 1) * cols ≤ rows * cols := Nat.mul_le_mul_right _ hi
  rw [Nat.add_mul, Nat.one_mul] at h1
  rw [if_pos ⟨by omega, by omega⟩, show base + i * cols + j - base = j + cols * i by rw [Nat.mul_comm cols i]; omega, Nat.add_mul_div_left _ _ (by omega), Nat.div_eq_of_lt hj, Nat.zero_add,
    Nat.add_mul_mod_self_left, Nat.mod_eq_of_lt hj]

theorem tab_lt {base rows cols r c i j : Nat} (hi : r < i) (hi2 : i ≤ r + rows) (hj : c < j) (hj2 : j ≤ c + cols) : base ≤ tab base cols r c i j / 2 ∧ tab base cols r c i j / 2 < base + rows * cols := by
  unfold tab
  have h1 : (i - (r + 1) + 1) * cols ≤ rows * cols := Nat.mul_le_mul_right _ (by omega)
  rw [Nat.add_mul, Nat.one_mul] at h1
  omega

theorem litVal_setTab {u : Nat → Bool} {base rows cols r c i j : Nat} {g : Nat → Nat → Bool} (hi : r < i) (hi2 : i ≤ r + rows) (hj : c < j) (hj2 : j ≤ c + cols) :
    litVal (setTab u base rows cols g) (tab base cols r c i j) = g (i - (r + 1)) (j - (c + 1)) := by
  unfold tab
  rw [litVal_two, setTab_new (by omega) (by omega)]

theorem seqRows_holds {u : Nat → Bool} {aux : Nat → Nat → Nat} {xs : List (Nat × Nat)} {rhs : Nat} {blk : Option Nat} {fA fB fC : Nat → Nat → Nat → Bool} {fD : Nat → Bool}
    (h : SeqExact u aux xs rhs) (hA : ∀ i j w, fA i j w = true → 2 ≤ i) (hB : ∀ i j w, fB i j w = true → j ≤ w) (hC : ∀ i j w, fC i j w = true → 2 ≤ i ∧ j + w ≤ rhs) (hD : ∀ i, fD i = true → 2 ≤ i)
    (hx : ∀ x ∈ xs, 0 < x.2 ∧ x.2 ≤ rhs) (hb : (∃ b ∈ blk, litVal u b = true) ∨ wsum u xs ≤ rhs) : ∀ c ∈ seqRows aux xs rhs blk fA fB fC fD, clauseVal u c = true := by
  intro c hc
  obtain ⟨i, x, h1, h2, h3⟩ := mem_seqRows.1 hc
  rcases h3 with ⟨j, hj1, hj2, ⟨hf, rfl⟩ | ⟨hf, rfl⟩ | ⟨hf, rfl⟩⟩ | ⟨hf, rfl⟩
  · exact exact_A h (hA _ _ _ hf) h2 hj1 hj2
  · exact exact_B h h1 h2 hj1 hj2 (hB _ _ _ hf)
  · exact exact_C h (hC _ _ _ hf).1 h2 hj1 (hC _ _ _ hf).2
  · exact exact_D h (hD _ hf) h2 (hx x (List.mem_of_getElem? h2)) hb

theorem seqRows_wf {n : Nat} {aux : Nat → Nat → Nat} {xs : List (Nat × Nat)} {rhs : Nat} {blk : Option Nat} {fA fB fC : Nat → Nat → Nat → Bool} {fD : Nat → Bool}
    (ha : ∀ i j, 1 ≤ i → i ≤ xs.length → 1 ≤ j → j ≤ rhs → aux i j / 2 < n) (hl : ∀ x ∈ xs, x.1 / 2 < n) (hA : ∀ i j w, fA i j w = true → 2 ≤ i)
    (hC : ∀ i j w, fC i j w = true → 2 ≤ i ∧ j + w ≤ rhs) (hD : ∀ i, fD i = true → 2 ≤ i) (hx : ∀ x ∈ xs, 0 < x.2 ∧ x.2 ≤ rhs) (hb : ∀ b ∈ blk, b / 2 < n) :
    ∀ c ∈ seqRows aux xs rhs blk fA fB fC fD, ∀ l ∈ c, l / 2 < n := by
  intro c hc l hm
  obtain ⟨i, x, h1, h2, h3⟩ := mem_seqRows.1 hc
  have hi : i - 1 < xs.length := (List.getElem?_eq_some_iff.1 h2).1
  have hxl := hl x (List.mem_of_getElem? h2)
  have hxw := hx x (List.mem_of_getElem? h2)
  rcases h3 with ⟨j, hj1, hj2, ⟨hf, rfl⟩ | ⟨hf, rfl⟩ | ⟨hf, rfl⟩⟩ | ⟨hf, rfl⟩
  · have := hA _ _ _ hf
    unfold seqA at hm
    simp only [List.mem_cons, List.not_mem_nil, or_false] at hm
    rcases hm with rfl | rfl
    · rw [neg_div]; exact ha _ _ (by omega) (by omega) hj1 hj2
    · exact ha _ _ h1 (by omega) hj1 hj2
  · unfold seqB at hm
    simp only [List.mem_cons, List.not_mem_nil, or_false] at hm
    rcases hm with rfl | rfl
    · rw [neg_div]; exact hxl
    · exact ha _ _ h1 (by omega) hj1 hj2
  · have := hC _ _ _ hf
    unfold seqC at hm
    simp only [List.mem_cons, List.not_mem_nil, or_false] at hm
    rcases hm with rfl | rfl | rfl
    · rw [neg_div]; exact ha _ _ (by omega) (by omega) hj1 hj2
    · rw [neg_div]; exact hxl
    · exact ha _ _ h1 (by omega) (by omega) (by omega)
  · have := hD _ hf
    unfold seqD at hm
    rcases List.mem_append.1 hm with hm | hm
    · simp only [List.mem_cons, List.not_mem_nil, or_false] at hm
      rcases hm with rfl | rfl
      · rw [neg_div]; exact ha _ _ (by omega) (by omega) (by omega) (by omega)
      · rw [neg_div]; exact hxl
    · exact hb l (Option.mem_toList.1 hm)

theorem wsum_filter (u : Nat → Bool) (p : Nat × Nat → Bool) : ∀ xs : List (Nat × Nat), wsum u xs = wsum u (xs.filter p) + wsum u (xs.filter fun x => !p x)
  | [] => rfl
  | (l, w) :: xs => by
    rw [wsum, wsum_filter u p xs, List.filter_cons, List.filter_cons]
    cases p (l, w) <;> simp [wsum] <;> omega

theorem wsum_eq_zero {u : Nat → Bool} {xs : List (Nat × Nat)} (h : ∀ x ∈ xs, litVal u x.1 = false) : wsum u xs = 0 := by
  induction xs with
  | nil => rfl
  | cons x xs ih =>
    obtain ⟨l, w⟩ := x
    rw [wsum, ih fun x hx => h x (List.mem_cons_of_mem _ hx)]
    have : litVal u l = false := h (l, w) List.mem_cons_self
    rw [this]; rfl

theorem wsum_ge {u : Nat → Bool} {xs : List (Nat × Nat)} {x : Nat × Nat} (hx : x ∈ xs) (h : litVal u x.1 = true) : x.2 ≤ wsum u xs := by
  induction xs with
  | nil => cases hx
  | cons y ys ih =>
    obtain ⟨l, w⟩ := y
    rw [wsum]
    rcases List.mem_cons.1 hx with rfl | hx
    · rw [if_pos h]; omega
    · have := ih hx; omega

theorem pairs_units {u : Nat → Bool} {xs : List (Nat × Nat)} : (∀ c ∈ xs.map fun x => [neg x.1], clauseVal u c = true) ↔ ∀ x ∈ xs, litVal u x.1 = false := by
  have : (xs.map fun x => [neg x.1]) = (xs.map (·.1)).map fun l => [neg l] := by rw [List.map_map]; rfl
  rw [this, units_holds]
  simp


theorem mem_small {xs : List (Nat × Nat)} {rhs : Nat} {x : Nat × Nat} : x ∈ small xs rhs ↔ x ∈ xs ∧ x.2 ≤ rhs := by
  unfold small
  rw [List.mem_filter, decide_eq_true_eq]

theorem enc_cov {n : Nat} {cs : List (List Nat)} {aux : Nat → Nat → Nat} {ys : List (Nat × Nat)} {rhs : Nat} {blk : Option Nat} :
    SeqCov ⟨n, seqRows aux ys rhs blk (fun i _ _ => decide (2 ≤ i)) (fun _ j w => decide (j ≤ w)) (fun i j w => decide (2 ≤ i) && decide (j + w ≤ rhs)) (fun i => decide (2 ≤ i)) ++ cs⟩ aux ys rhs ∧
    SeqBound ⟨n, seqRows aux ys rhs blk (fun i _ _ => decide (2 ≤ i)) (fun _ j w => decide (j ≤ w)) (fun i j w => decide (2 ≤ i) && decide (j + w ≤ rhs)) (fun i => decide (2 ≤ i)) ++ cs⟩ aux ys rhs blk := by
  refine ⟨⟨fun i x j hi hx h1 h2 => ?_, fun i x j hi hx h1 h2 h3 => ?_, fun i x j hi hx h1 h2 => ?_⟩, fun i x hi hx => ?_⟩
  · exact List.mem_append_left _ (mem_seqRows.2 ⟨i, x, by omega, hx, .inl ⟨j, h1, h2, .inl ⟨decide_eq_true hi, rfl⟩⟩⟩)
  · exact List.mem_append_left _ (mem_seqRows.2 ⟨i, x, by omega, hx, .inl ⟨j, h1, h2, .inr (.inl ⟨decide_eq_true h3, rfl⟩)⟩⟩)
  · exact List.mem_append_left _ (mem_seqRows.2 ⟨i, x, by omega, hx, .inl ⟨j, h1, by omega, .inr (.inr ⟨by simp [hi, h2], rfl⟩)⟩⟩)
  · exact List.mem_append_left _ (mem_seqRows.2 ⟨i, x, by omega, hx, .inr ⟨decide_eq_true hi, rfl⟩⟩)

theorem psum_congr {u v : Nat → Bool} {xs : List (Nat × Nat)} (h : ∀ x ∈ xs, u (x.1 / 2) = v (x.1 / 2)) (i : Nat) : psum u xs i = psum v xs i :=
  wsum_congr fun x hx => h x (List.mem_of_mem_take hx)

theorem exact_setTab {u : Nat → Bool} {base : Nat} {ys : List (Nat × Nat)} (hb : ∀ x ∈ ys, x.1 / 2 < base) (rhs : Nat) :
    SeqExact (setTab u base ys.length rhs fun i j => decide (j + 1 ≤ psum u ys (i + 1))) (tab base rhs 0 0) ys rhs := by
  intro i j hi1 hi2 hj1 hj2
  rw [litVal_setTab (by omega) (by omega) (by omega) (by omega), psum_congr (u := setTab u base ys.length rhs _) (v := u) fun x hx => setTab_old (hb x hx), show i - (0 + 1) + 1 = i by omega,
    show j - (0 + 1) + 1 = j by omega]

/-- a counting encoding on the solver -/
structure PB (sw : Swc) (s : Sol) (xs : List (Nat × Nat)) (aux : Nat → Nat → Nat) (ys : List (Nat × Nat)) (R : Nat) : Prop where
  cov : SeqCov s aux ys R
  outs : sw.outs = (List.range' 1 R).map (aux ys.length)
  le : sw.rhs ≤ R
  pos : 1 ≤ ys.length
  below : ∀ j, 1 ≤ j → j ≤ R → aux ys.length j / 2 < s.n
  rest : ∀ u : Nat → Bool, s.Holds u → wsum u xs = wsum u ys

/-- enc_swc.go:43 `encode`: if exactly one literal remains, it is excluded as well -/
theorem swc_encode_spec {sw : Swc} {s : Sol} {xs : List (Nat × Nat)} {rhs : Nat} (hw : s.WF) (hb : ∀ x ∈ xs, x.1 / 2 < s.n) (hp : ∀ x ∈ xs, 0 < x.2)
    (ho : sw.outs = []) : ∃ sw' s' ys, sw.encode s xs rhs = (sw', s', ys) ∧ Ext s s' ∧ s'.WF ∧ (∀ u : Nat → Bool, s'.Holds u → wsum u xs ≤ rhs) ∧
    (sw'.has = false → ∀ u : Nat → Bool, s'.Holds u → wsum u xs = 0) ∧
    ∃ aux, (sw'.has = true → sw'.rhs = rhs ∧ PB sw' s' xs aux ys rhs) ∧
      ((small xs rhs).length ≠ 1 → ∀ u : Nat → Bool, s.Holds u → wsum u xs ≤ rhs → ∃ u' : Nat → Bool, (∀ x < s.n, u' x = u x) ∧ s'.Holds u' ∧ (sw'.has = true → SeqExact u' aux ys rhs)) := by
  unfold Swc.encode
  dsimp only
  obtain ⟨s1, hs1⟩ : ∃ s1, s.addAll ((big xs rhs).map fun x => [neg x.1]) = s1 := ⟨_, rfl⟩
  have n1 : s1.n = s.n := by rw [← hs1]; rfl
  have e1 : Ext s s1 := by rw [← hs1]; exact addAll_ext _ _
  have hbig : ∀ x ∈ big xs rhs, x ∈ xs ∧ rhs < x.2 := fun x hx => by
    obtain ⟨h1, h2⟩ := List.mem_filter.1 hx
    exact ⟨h1, by simpa using h2⟩
  have w1 : s1.WF := by
    intro c hc l hl
    rw [n1]
    rw [← hs1] at hc
    rcases List.mem_append.1 hc with hc | hc
    · obtain ⟨x, hx, rfl⟩ := List.mem_map.1 hc
      rw [List.mem_singleton.1 hl, neg_div]; exact hb x (hbig x hx).1
    · exact hw c hc l hl
  have so : ∀ u : Nat → Bool, s1.Holds u → wsum u xs = wsum u (small xs rhs) := fun u hu => by
    rw [← hs1] at hu
    have := pairs_units.1 (Sol.holds_addAll.1 hu).1
    rw [wsum_filter u (fun x => decide (x.2 ≤ rhs)) xs]
    have h0 : wsum u (big xs rhs) = 0 := wsum_eq_zero this
    unfold big at h0
    rw [h0]; rfl
  have co : ∀ u : Nat → Bool, s.Holds u → wsum u xs ≤ rhs → s1.Holds u := fun u hu hle => by
    rw [← hs1]
    refine Sol.holds_addAll.2 ⟨pairs_units.2 fun x hx => ?_, hu⟩
    have := hbig x hx
    refine Classical.byContradiction fun hn => ?_
    have := wsum_ge this.1 (by simpa using hn)
    omega
  rw [hs1]
  by_cases h1 : (small xs rhs).length = 1
  · rw [if_pos h1]
    have hz : ∀ u : Nat → Bool, (s1.addAll ((small xs rhs).map fun x => [neg x.1])).Holds u → wsum u xs = 0 := fun u hu => by
      obtain ⟨a, b⟩ := Sol.holds_addAll.1 hu
      rw [so u b]
      exact wsum_eq_zero (pairs_units.1 a)
    refine ⟨_, _, _, rfl, e1.trans (addAll_ext _ _), ?_, fun u hu => by rw [hz u hu]; omega, fun _ => hz, fun _ _ => 0, fun h => (nomatch h), fun h => absurd h1 h⟩
    intro c hc l hl
    rcases List.mem_append.1 hc with hc | hc
    · obtain ⟨x, hx, rfl⟩ := List.mem_map.1 hc
      rw [List.mem_singleton.1 hl, neg_div]
      show _ < s1.n
      rw [n1]; exact hb x (mem_small.1 hx).1
    · exact w1 c hc l hl
  rw [if_neg h1]
  by_cases h0 : (small xs rhs).length = 0
  · rw [if_pos h0]
    have hz : ∀ u : Nat → Bool, s1.Holds u → wsum u xs = 0 := fun u hu => by
      rw [so u hu, List.length_eq_zero_iff.1 h0]; rfl
    exact ⟨_, _, _, rfl, e1, w1, fun u hu => by rw [hz u hu]; omega, fun _ => hz, fun _ _ => 0, fun h => (nomatch h), fun _ u hu hle => ⟨u, fun _ _ => rfl, co u hu hle, fun h => (nomatch h)⟩⟩
  · rw [if_neg h0]
    obtain ⟨ys, hys⟩ : ∃ ys, small xs rhs = ys := ⟨_, rfl⟩
    have hm : ∀ x ∈ ys, x ∈ xs ∧ x.2 ≤ rhs := fun x hx => mem_small.1 (by rw [hys]; exact hx)
    rw [hys] at h0 h1 ⊢
    have hx : ∀ x ∈ ys, 0 < x.2 ∧ x.2 ≤ rhs := fun x hx => ⟨hp x (hm x hx).1, (hm x hx).2⟩
    have ext2 : ∀ n cs, s1.n ≤ n → Ext s1 ⟨n, cs ++ s1.cs⟩ := fun n cs hn => ⟨hn, fun c hc => List.mem_append_right _ hc⟩
    have hT : ∀ i j, 1 ≤ i → i ≤ ys.length → 1 ≤ j → j ≤ rhs → tab s1.n rhs 0 0 i j / 2 < s1.n + ys.length * rhs := fun i j a b c d => (tab_lt (by omega) (by omega) (by omega) (by omega)).2
    refine ⟨_, _, _, rfl, e1.trans (ext2 _ _ (by omega)), ?_, ?_, fun h => (nomatch h), tab s1.n rhs 0 0, fun _ => ⟨rfl, ⟨?_, by rw [ho]; rfl, Nat.le_refl _, by omega, ?_, ?_⟩⟩, ?_⟩
    · intro c hc l hl
      rcases List.mem_append.1 hc with hc | hc
      · exact seqRows_wf (blk := none) hT (fun x hx' => by have := hb x (hm x hx').1; omega) (fun i j w h => of_decide_eq_true h) (fun i j w h => by simpa using h) (fun i h => of_decide_eq_true h) hx
          (fun b h => nomatch h) c hc l hl
      · have := w1 c hc l hl
        exact Nat.lt_of_lt_of_le this (Nat.le_add_right _ _)
    · intro u hu
      have := so u ((ext2 _ _ (by omega)).holds hu)
      rw [this, hys]
      exact seq_le (aux := tab s1.n rhs 0 0) (blk := none) enc_cov.1 enc_cov.2 hx hu (fun b h => nomatch h)
    · exact enc_cov.1
    · intro j hj1 hj2
      exact hT _ _ (by omega) (Nat.le_refl _) hj1 hj2
    · intro u hu
      rw [so u ((ext2 _ _ (by omega)).holds hu), hys]
    · intro _ u hu hle
      have hu1 := co u hu hle
      have hbl : ∀ x ∈ ys, x.1 / 2 < s1.n := fun x hx => by have := hb x (hm x hx).1; omega
      have hex := exact_setTab (u := u) hbl rhs
      refine ⟨_, fun x hx => setTab_old (by omega), fun c hc => ?_, fun _ => hex⟩
      rcases List.mem_append.1 hc with hc | hc
      · refine seqRows_holds hex (fun i j w h => of_decide_eq_true h) (fun i j w h => of_decide_eq_true h) (fun i j w h => by simpa using h) (fun i h => of_decide_eq_true h) hx (.inr ?_) c hc
        rw [wsum_congr fun x hx => setTab_old (hbl x hx), ← hys, ← so u hu1]
        exact hle
      · exact (Sol.holds_congr w1 fun x hx => (setTab_old hx).symm).1 hu1 c hc

/-- enc_swc.go:205 `update` -/
theorem swc_update_spec {sw : Swc} {s : Sol} {xs ys : List (Nat × Nat)} {aux : Nat → Nat → Nat} {R rhs : Nat} (hw : s.WF) (h : PB sw s xs aux ys R) (hr : rhs < sw.rhs) :
    ∃ s', sw.update s rhs = ({ sw with rhs := rhs }, s') ∧ Ext s s' ∧ s'.WF ∧ PB { sw with rhs := rhs } s' xs aux ys R ∧ (∀ u : Nat → Bool, s'.Holds u → wsum u xs ≤ rhs) ∧
    ∀ u : Nat → Bool, s.Holds u → SeqExact u aux ys R → wsum u xs ≤ rhs → s'.Holds u := by
  unfold Swc.update
  have hle := h.le
  have hout : ∀ l, l ∈ (sw.outs.take sw.rhs).drop rhs ↔ ∃ j, rhs + 1 ≤ j ∧ j ≤ sw.rhs ∧ l = aux ys.length j := fun l => by
    rw [h.outs, List.mem_iff_getElem]
    constructor
    · rintro ⟨i, hi, rfl⟩
      simp at hi
      exact ⟨1 + (rhs + i), by omega, by omega, by simp⟩
    · rintro ⟨j, h1, h2, rfl⟩
      exact ⟨j - 1 - rhs, by simp; omega, by simp; congr 1; omega⟩
  refine ⟨_, rfl, addAll_ext _ _, ?_, ⟨?_, h.outs, by dsimp only; omega, h.pos, h.below, fun u hu => h.rest u (Ext.holds (addAll_ext _ _) hu)⟩, fun u hu => ?_, fun u hu he hle => ?_⟩
  · exact units_wf hw fun l hl => by
      obtain ⟨j, h1, h2, rfl⟩ := (hout l).1 hl
      exact h.below j (by omega) (by omega)
  · have e := addAll_ext s (((sw.outs.take sw.rhs).drop rhs).map fun l => [neg l])
    exact ⟨fun i x j a b c d => e.cs _ (h.cov.A i x j a b c d), fun i x j a b c d f => e.cs _ (h.cov.B i x j a b c d f), fun i x j a b c d => e.cs _ (h.cov.C i x j a b c d)⟩
  · obtain ⟨h1, h2⟩ := Sol.holds_addAll.1 hu
    rw [h.rest u h2]
    refine Classical.byContradiction fun hgt => ?_
    have a := seq_reach h.cov h2 ys.length h.pos (Nat.le_refl _) (rhs + 1) (by omega) (by omega) (by rw [psum_all]; omega)
    have b := units_holds.1 h1 _ ((hout _).2 ⟨rhs + 1, Nat.le_refl _, by omega, rfl⟩)
    rw [a] at b; cases b
  · refine Sol.holds_addAll.2 ⟨units_holds.2 fun l hl => ?_, hu⟩
    obtain ⟨j, h1, h2, rfl⟩ := (hout l).1 hl
    rw [he ys.length j h.pos (Nat.le_refl _) (by omega) (by omega), psum_all, ← h.rest u hu]
    exact decide_eq_false (by omega)

end Verif.MaxAlg
