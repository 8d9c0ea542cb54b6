import Verif.Data.HeapModel
import Mathlib.Data.Set.Insert
/-!
# C39 (heap): no element is lost or duplicated, and `removeMin` returns an element of maximal activity
-/
namespace Verif.Data

/-- the positions of the heap and the elements of the set `X` correspond one to one -/
structure Cons (s : Heap) (X : Set Nat) : Prop where
  idx : ∀ i, i < s.n → s.idx (s.h i) = i
  mem : ∀ v, v ∈ X ↔ ∃ i, i < s.n ∧ s.h i = v
  out : ∀ v, v ∉ X → s.idx v = -1

/-- the heap order, for all positions whose parent is at least `k` -/
def OrdFrom (act : Nat → Int) (s : Heap) (k : Nat) : Prop := ∀ i, 0 < i → i < s.n → k ≤ par i → act (s.h i) ≤ act (s.h (par i))

theorem fset_same {β : Type} (g : Nat → β) (i : Nat) (x : β) : fset g i x i = x := by simp [fset]
theorem fset_ne {β : Type} (g : Nat → β) {i j : Nat} (x : β) (h : j ≠ i) : fset g i x j = g j := by simp [fset, h]

/-- the heap with `x` written into the hole `j` -/
def plug (s : Heap) (j x : Nat) : Heap := { s with h := fset s.h j x, idx := fset s.idx x j }

theorem cons_inj {s : Heap} {X : Set Nat} (C : Cons s X) {i j : Nat} (hi : i < s.n) (hj : j < s.n) (h : s.h i = s.h j) : i = j := by
  have h1 := C.idx i hi
  have h2 := C.idx j hj
  rw [h] at h1; omega

/-- swapping the contents of two positions -/
theorem cons_swap {s t : Heap} {X : Set Nat} (C : Cons s X) {i j : Nat} (hi : i < s.n) (hj : j < s.n) (hn : t.n = s.n)
    (h1 : t.h i = s.h j) (h2 : t.h j = s.h i) (h3 : ∀ k, k < s.n → k ≠ i → k ≠ j → t.h k = s.h k)
    (g1 : t.idx (s.h j) = i) (g2 : t.idx (s.h i) = j) (g3 : ∀ v, v ≠ s.h i → v ≠ s.h j → t.idx v = s.idx v) : Cons t X := by
  refine ⟨fun k hk => ?_, fun v => ?_, fun v hv => ?_⟩
  · rw [hn] at hk
    by_cases e1 : k = i
    · subst e1; rw [h1, g1]
    · by_cases e2 : k = j
      · subst e2; rw [h2, g2]
      · rw [h3 k hk e1 e2, g3, C.idx k hk]
        · exact fun h => e1 (cons_inj C hk hi h)
        · exact fun h => e2 (cons_inj C hk hj h)
  · rw [C.mem, hn]
    constructor
    · rintro ⟨k, hk, rfl⟩
      by_cases e1 : k = i
      · exact ⟨j, hj, by rw [h2, e1]⟩
      · by_cases e2 : k = j
        · exact ⟨i, hi, by rw [h1, e2]⟩
        · exact ⟨k, hk, h3 k hk e1 e2⟩
    · rintro ⟨k, hk, rfl⟩
      by_cases e1 : k = i
      · exact ⟨j, hj, by rw [e1, h1]⟩
      · by_cases e2 : k = j
        · exact ⟨i, hi, by rw [e2, h2]⟩
        · exact ⟨k, hk, (h3 k hk e1 e2).symm⟩
  · rw [g3, C.out v hv]
    · exact fun h => hv ((C.mem v).2 ⟨i, hi, h.symm⟩)
    · exact fun h => hv ((C.mem v).2 ⟨j, hj, h.symm⟩)

/-- moving the hole from `j` to `p` -/
theorem cons_move {s : Heap} {X : Set Nat} {j p x : Nat} (C : Cons (plug s j x) X) (hj : j < s.n) (hp : p < s.n) (hne : p ≠ j) :
    Cons (plug { s with h := fset s.h j (s.h p), idx := fset s.idx (s.h p) j } p x) X := by
  have hpx : s.h p ≠ x := by
    intro e
    have h1 : (plug s j x).h p = (plug s j x).h j := by show fset _ _ _ _ = fset _ _ _ _; rw [fset_same, fset_ne _ _ hne, e]
    exact hne (cons_inj C (i := p) (j := j) hp hj h1)
  have e1 : (plug s j x).h j = x := fset_same _ _ _
  have e2 : (plug s j x).h p = s.h p := fset_ne _ _ hne
  refine cons_swap C (i := j) (j := p) hj hp rfl ?_ ?_ ?_ ?_ ?_ ?_
  · rw [e2]; show fset (fset s.h j (s.h p)) p x j = _
    rw [fset_ne _ _ hne.symm, fset_same]
  · rw [e1]; exact fset_same _ _ _
  · intro k _ hk1 hk2
    show fset (fset s.h j (s.h p)) p x k = fset s.h j x k
    rw [fset_ne _ _ hk2, fset_ne _ _ hk1, fset_ne _ _ hk1]
  · rw [e2]; show fset (fset s.idx (s.h p) j) x p (s.h p) = _
    rw [fset_ne _ _ hpx, fset_same]
  · rw [e1]; exact fset_same _ _ _
  · rw [e1, e2]
    intro v hv1 hv2
    show fset (fset s.idx (s.h p) j) x p v = fset s.idx x j v
    rw [fset_ne _ _ hv1, fset_ne _ _ hv2, fset_ne _ _ hv1]

/-- heap order except between the hole and its parent -/
structure Up (act : Nat → Int) (s : Heap) (j : Nat) : Prop where
  ord : ∀ i, 0 < i → i < s.n → i ≠ j → act (s.h i) ≤ act (s.h (par i))
  chl : j ≠ 0 → ∀ i, 0 < i → i < s.n → par i = j → act (s.h i) ≤ act (s.h (par j))

theorem par_lt {i : Nat} (h : 0 < i) : par i < i := by unfold par; omega

theorem upLoop_cons {act : Nat → Int} {x : Nat} {X : Set Nat} (s : Heap) (j : Nat) (hj : j < s.n) (C : Cons (plug s j x) X) :
    Cons (plug (upLoop act x s j).1 (upLoop act x s j).2 x) X ∧ (upLoop act x s j).1.n = s.n := by
  rw [upLoop]
  split
  · rename_i h
    have hp := par_lt (Nat.pos_of_ne_zero h.1)
    have := upLoop_cons (act := act) (X := X) { s with h := fset s.h j (s.h (par j)), idx := fset s.idx (s.h (par j)) j } (par j) (by show _ < s.n; omega)
      (cons_move C hj (by omega) (by omega))
    exact this
  · exact ⟨C, rfl⟩
termination_by j
decreasing_by omega

theorem upLoop_ord {act : Nat → Int} {x : Nat} (s : Heap) (j : Nat) (hj : j < s.n) (U : Up act (plug s j x) j) :
    OrdFrom act (plug (upLoop act x s j).1 (upLoop act x s j).2 x) 0 := by
  rw [upLoop]
  split
  · rename_i h
    have hp := par_lt (Nat.pos_of_ne_zero h.1)
    have hlt : act x > act (s.h (par j)) := by simpa [hlt] using h.2
    refine upLoop_ord { s with h := fset s.h j (s.h (par j)), idx := fset s.idx (s.h (par j)) j } (par j) (by show _ < s.n; omega) ⟨fun i h1 h2 h3 => ?_, fun hp0 i h1 h2 h3 => ?_⟩
    · show act (fset (fset s.h j (s.h (par j))) (par j) x i) ≤ act (fset (fset s.h j (s.h (par j))) (par j) x (par i))
      rw [fset_ne _ _ h3]
      by_cases e : i = j
      · subst e; rw [fset_same, fset_same]; omega
      · rw [fset_ne _ _ e]
        have o := U.ord i h1 h2 e
        simp only [plug] at o
        rw [fset_ne _ _ e] at o
        by_cases e2 : par i = par j
        · rw [e2, fset_same]
          rw [e2, fset_ne _ _ (show par j ≠ j by omega)] at o
          omega
        · rw [fset_ne _ _ e2]
          by_cases e3 : par i = j
          · rw [e3, fset_same]
            have c := U.chl h.1 i h1 h2 e3
            simp only [plug] at c
            rw [fset_ne _ _ e, fset_ne _ _ (show par j ≠ j by omega)] at c
            exact c
          · rw [fset_ne _ _ e3]; rwa [fset_ne _ _ e3] at o
    · show act (fset (fset s.h j (s.h (par j))) (par j) x i) ≤ act (fset (fset s.h j (s.h (par j))) (par j) x (par (par j)))
      have hpp := par_lt (Nat.pos_of_ne_zero hp0)
      have hpi := par_lt h1
      rw [fset_ne _ _ (show par (par j) ≠ par j by omega), fset_ne _ _ (show par (par j) ≠ j by omega), fset_ne _ _ (show i ≠ par j by omega)]
      have o := U.ord (par j) (Nat.pos_of_ne_zero hp0) (by show _ < s.n; omega) (by omega)
      simp only [plug] at o
      rw [fset_ne _ _ (show par j ≠ j by omega), fset_ne _ _ (show par (par j) ≠ j by omega)] at o
      by_cases e : i = j
      · subst e; rw [fset_same]; exact o
      · rw [fset_ne _ _ e]
        have o2 := U.ord i h1 h2 e
        simp only [plug] at o2
        rw [fset_ne _ _ e, h3, fset_ne _ _ (show par j ≠ j by omega)] at o2
        omega
  · rename_i h
    intro i h1 h2 _
    by_cases e : i = j
    · subst e
      show act (fset s.h i x i) ≤ act (fset s.h i x (par i))
      have hp := par_lt h1
      rw [fset_same, fset_ne _ _ (show par i ≠ i by omega)]
      have : ¬ hlt act x (s.h (par i)) = true := fun hh => h ⟨by omega, hh⟩
      simp [hlt] at this; exact this
    · exact U.ord i h1 h2 e
termination_by j
decreasing_by omega

theorem plug_self {s : Heap} {X : Set Nat} (C : Cons s X) {j : Nat} (hj : j < s.n) : plug s j (s.h j) = s := by
  unfold plug
  have e1 : fset s.h j (s.h j) = s.h := by
    funext k; by_cases e : k = j
    · subst e; rw [fset_same]
    · rw [fset_ne _ _ e]
  have e2 : fset s.idx (s.h j) (j : Int) = s.idx := by
    funext k; by_cases e : k = s.h j
    · subst e; rw [fset_same, C.idx j hj]
    · rw [fset_ne _ _ e]
  rw [e1, e2]

theorem percolateUp_cons {act : Nat → Int} {s : Heap} {X : Set Nat} (C : Cons s X) {j : Nat} (hj : j < s.n) : Cons (percolateUp act s j) X ∧ (percolateUp act s j).n = s.n :=
  upLoop_cons (x := s.h j) s j hj (by rw [plug_self C hj]; exact C)
theorem percolateUp_ord {act : Nat → Int} {s : Heap} {X : Set Nat} (C : Cons s X) {j : Nat} (hj : j < s.n) (U : Up act s j) : OrdFrom act (percolateUp act s j) 0 :=
  upLoop_ord (x := s.h j) s j hj (by rw [plug_self C hj]; exact U)

/-- heap order (above `k`) except between the hole and its children -/
structure Down (act : Nat → Int) (s : Heap) (k p : Nat) : Prop where
  ge : k ≤ p
  ord : ∀ i, 0 < i → i < s.n → k ≤ par i → par i ≠ p → act (s.h i) ≤ act (s.h (par i))
  chl : 0 < p → k ≤ par p → ∀ i, 0 < i → i < s.n → par i = p → act (s.h i) ≤ act (s.h (par p))

theorem child_spec (act : Nat → Int) (s : Heap) {p : Nat} (hp : p * 2 + 1 < s.n) :
    child act s p < s.n ∧ 0 < child act s p ∧ par (child act s p) = p ∧ ∀ i, 0 < i → i < s.n → par i = p → act (s.h i) ≤ act (s.h (child act s p)) := by
  have hi : ∀ i, 0 < i → par i = p → i = p * 2 + 1 ∨ i = (p + 1) * 2 := by intro i h1 h2; unfold par at h2; omega
  unfold child
  split
  · rename_i h
    have h2 : act (s.h ((p + 1) * 2)) > act (s.h (p * 2 + 1)) := by simpa [hlt] using h.2
    refine ⟨h.1, by omega, by unfold par; omega, fun i h3 h4 h5 => ?_⟩
    rcases hi i h3 h5 with rfl | rfl <;> omega
  · rename_i h
    refine ⟨hp, by omega, by unfold par; omega, fun i h3 h4 h5 => ?_⟩
    rcases hi i h3 h5 with rfl | rfl
    · omega
    · have : ¬ hlt act (s.h ((p + 1) * 2)) (s.h (p * 2 + 1)) = true := fun hh => h ⟨h4, hh⟩
      simp [hlt] at this; exact this

theorem downLoop_cons {act : Nat → Int} {y : Nat} {X : Set Nat} (s : Heap) (p : Nat) (hp : p < s.n) (C : Cons (plug s p y) X) :
    Cons (plug (downLoop act y s p).1 (downLoop act y s p).2 y) X ∧ (downLoop act y s p).1.n = s.n := by
  rw [downLoop]
  split
  · rename_i h
    obtain ⟨c1, c2, c3, _⟩ := child_spec act s h.1
    have hpc := par_lt c2
    exact downLoop_cons (act := act) (X := X) { s with h := fset s.h p (s.h (child act s p)), idx := fset s.idx (s.h (child act s p)) p } (child act s p) c1
      (cons_move C hp c1 (by omega))
  · exact ⟨C, rfl⟩
termination_by s.n - p
decreasing_by show s.n - child act s p < s.n - p; omega

theorem downLoop_ord {act : Nat → Int} {y k : Nat} (s : Heap) (p : Nat) (hp : p < s.n) (D : Down act (plug s p y) k p) :
    OrdFrom act (plug (downLoop act y s p).1 (downLoop act y s p).2 y) k := by
  rw [downLoop]
  split
  · rename_i h
    obtain ⟨c1, c2, c3, c4⟩ := child_spec act s h.1
    have hpc := par_lt c2
    have hlt : act (s.h (child act s p)) > act y := by simpa [hlt] using h.2
    have hge := D.ge
    refine downLoop_ord { s with h := fset s.h p (s.h (child act s p)), idx := fset s.idx (s.h (child act s p)) p } (child act s p) c1 ⟨by omega, fun i h1 h2 h3 h4 => ?_, fun _ h0 i h1 h2 h3 => ?_⟩
    · show act (fset (fset s.h p (s.h (child act s p))) (child act s p) y i) ≤ act (fset (fset s.h p (s.h (child act s p))) (child act s p) y (par i))
      have hpi := par_lt h1
      rw [fset_ne _ _ h4]
      by_cases e : par i = p
      · rw [e, fset_same]
        by_cases e2 : i = child act s p
        · rw [e2, fset_same]; omega
        · rw [fset_ne _ _ e2, fset_ne _ _ (show i ≠ p by omega)]
          exact c4 i h1 h2 e
      · rw [fset_ne _ _ e]
        have o := D.ord i h1 h2 h3 e
        simp only [plug] at o
        rw [fset_ne _ _ e] at o
        have e2 : i ≠ child act s p := fun h => e (h ▸ c3)
        rw [fset_ne _ _ e2]
        by_cases e3 : i = p
        · subst e3
          rw [fset_same]
          have c := D.chl h1 h3 (child act s i) c2 c1 c3
          simp only [plug] at c
          rw [fset_ne _ _ (show child act s i ≠ i by omega), fset_ne _ _ (show par i ≠ i by omega)] at c
          exact c
        · rw [fset_ne _ _ e3]; rwa [fset_ne _ _ e3] at o
    · show act (fset (fset s.h p (s.h (child act s p))) (child act s p) y i) ≤ act (fset (fset s.h p (s.h (child act s p))) (child act s p) y (par (child act s p)))
      have hpi := par_lt h1
      rw [c3, fset_ne _ _ (show p ≠ child act s p by omega), fset_same, fset_ne _ _ (show i ≠ child act s p by omega), fset_ne _ _ (show i ≠ p by omega)]
      have o := D.ord i h1 h2 (by omega) (by omega)
      simp only [plug] at o
      rw [h3, fset_ne _ _ (show child act s p ≠ p by omega), fset_ne _ _ (show i ≠ p by omega)] at o
      exact o
  · rename_i h
    intro i h1 h2 h3
    by_cases e : par i = p
    · show act (fset s.h p y i) ≤ act (fset s.h p y (par i))
      have hpi := par_lt h1
      have hpn : p * 2 + 1 < s.n := by
        have h2' : i < s.n := h2
        unfold par at e; omega
      rw [e, fset_same, fset_ne _ _ (show i ≠ p by omega)]
      have : ¬ hlt act (s.h (child act s p)) y = true := fun hh => h ⟨hpn, hh⟩
      simp [hlt] at this
      have := (child_spec act s hpn).2.2.2 i h1 h2 e
      omega
    · exact D.ord i h1 h2 h3 e
termination_by s.n - p
decreasing_by show s.n - child act s p < s.n - p; omega

theorem percolateDown_cons {act : Nat → Int} {s : Heap} {X : Set Nat} (C : Cons s X) {j : Nat} (hj : j < s.n) : Cons (percolateDown act s j) X ∧ (percolateDown act s j).n = s.n :=
  downLoop_cons (y := s.h j) s j hj (by rw [plug_self C hj]; exact C)
theorem percolateDown_ord {act : Nat → Int} {s : Heap} {X : Set Nat} (C : Cons s X) {j k : Nat} (hj : j < s.n) (D : Down act s k j) : OrdFrom act (percolateDown act s j) k :=
  downLoop_ord (y := s.h j) s j hj (by rw [plug_self C hj]; exact D)

/-! ### the operations -/

theorem cons_inHeap {s : Heap} {X : Set Nat} (C : Cons s X) (v : Nat) : inHeap s v = true ↔ v ∈ X := by
  unfold inHeap
  constructor
  · intro h
    by_contra hv
    have := C.out v hv
    simp [this] at h
  · intro h
    obtain ⟨i, hi, rfl⟩ := (C.mem v).1 h
    simp [C.idx i hi]

theorem cons_pos {s : Heap} {X : Set Nat} (C : Cons s X) {v : Nat} (hv : v ∈ X) : (s.idx v).toNat < s.n ∧ s.h (s.idx v).toNat = v := by
  obtain ⟨i, hi, rfl⟩ := (C.mem v).1 hv
  rw [C.idx i hi]; exact ⟨by simpa using hi, by simp⟩

theorem cons_new : Cons newHeap ∅ := ⟨by simp [newHeap], by simp [newHeap], by simp [newHeap]⟩

theorem cons_append {s : Heap} {X : Set Nat} (C : Cons s X) {v : Nat} (hv : v ∉ X) : Cons { n := s.n + 1, h := fset s.h s.n v, idx := fset s.idx v s.n } (Set.insert v X) := by
  refine ⟨fun i hi => ?_, fun w => ?_, fun w hw => ?_⟩
  · dsimp only at hi ⊢
    by_cases e : i = s.n
    · rw [e, fset_same, fset_same]
    · rw [fset_ne _ _ e, fset_ne, C.idx i (by omega)]
      exact fun h => hv ((C.mem v).2 ⟨i, by omega, h⟩)
  · dsimp only
    constructor
    · rintro (rfl | h)
      · exact ⟨s.n, by omega, fset_same _ _ _⟩
      · obtain ⟨i, hi, e⟩ := (C.mem w).1 h
        exact ⟨i, by omega, by rw [fset_ne _ _ (by omega), e]⟩
    · rintro ⟨i, hi, rfl⟩
      by_cases e : i = s.n
      · rw [e, fset_same]; exact .inl rfl
      · rw [fset_ne _ _ e]; exact .inr ((C.mem _).2 ⟨i, by omega, rfl⟩)
  · dsimp only
    rw [fset_ne, C.out w (fun h => hw (.inr h))]
    exact fun h => hw (.inl h)

theorem insert_cons {act : Nat → Int} {s : Heap} {X : Set Nat} (C : Cons s X) {v : Nat} (hv : v ∉ X) : Cons (insert act s v) (Set.insert v X) :=
  (percolateUp_cons (cons_append C hv) (Nat.lt_succ_self _)).1

theorem insert_ord {act : Nat → Int} {s : Heap} {X : Set Nat} (C : Cons s X) (O : OrdFrom act s 0) {v : Nat} (hv : v ∉ X) : OrdFrom act (insert act s v) 0 := by
  refine percolateUp_ord (cons_append C hv) (Nat.lt_succ_self _) ⟨fun i h1 h2 h3 => ?_, fun _ i h1 h2 h3 => ?_⟩
  · dsimp only at h2 ⊢
    have := par_lt h1
    rw [fset_ne _ _ h3, fset_ne _ _ (by omega)]
    exact O i h1 (by omega) (Nat.zero_le _)
  · dsimp only at h2
    have := par_lt h1
    omega

theorem decrease_cons {act : Nat → Int} {s : Heap} {X : Set Nat} (C : Cons s X) {v : Nat} (hv : v ∈ X) : Cons (decrease act s v) X :=
  (percolateUp_cons C (cons_pos C hv).1).1

/-- after the activity of `v` has grown -/
theorem decrease_ord {act act' : Nat → Int} {s : Heap} {X : Set Nat} (C : Cons s X) (O : OrdFrom act s 0) {v : Nat} (hv : v ∈ X)
    (hm : ∀ x y, y ≠ v → act y ≤ act x → act' y ≤ act' x) : OrdFrom act' (decrease act' s v) 0 := by
  obtain ⟨h1, h2⟩ := cons_pos C hv
  refine percolateUp_ord C h1 ⟨fun i h3 h4 h5 => hm _ _ (fun h => h5 (cons_inj C h4 h1 (by rw [h, h2]))) (O i h3 h4 (Nat.zero_le _)), fun h0 i h3 h4 h5 => ?_⟩
  have hpi := par_lt h3
  refine hm _ _ (fun h => ?_) (le_trans (O i h3 h4 (Nat.zero_le _)) (h5 ▸ O (par i) (by omega) (by omega) (Nat.zero_le _)))
  have := cons_inj C h4 h1 (by rw [h, h2]); omega

theorem root_max {act : Nat → Int} {s : Heap} (O : OrdFrom act s 0) : ∀ i, i < s.n → act (s.h i) ≤ act (s.h 0) := by
  intro i
  induction i using Nat.strongRecOn with
  | _ i ih =>
    intro hi
    rcases Nat.eq_zero_or_pos i with rfl | h
    · exact le_rfl
    · have := par_lt h
      exact le_trans (O i h hi (Nat.zero_le _)) (ih (par i) this (by omega))

/-- writing the last element into position `k` and shortening the heap -/
theorem cons_cut {s : Heap} {X : Set Nat} (C : Cons s X) {k : Nat} (hk : k < s.n) {idx' : Nat → Int}
    (h1 : idx' (s.h k) = -1) (h2 : k < s.n - 1 → idx' (s.h (s.n - 1)) = k) (h3 : ∀ v, v ≠ s.h k → v ≠ s.h (s.n - 1) → idx' v = s.idx v) :
    Cons { n := s.n - 1, h := fset s.h k (s.h (s.n - 1)), idx := idx' } (X \ {s.h k}) := by
  refine ⟨fun i hi => ?_, fun w => ?_, fun w hw => ?_⟩
  · dsimp only at hi ⊢
    by_cases e : i = k
    · subst e; rw [fset_same]; exact h2 hi
    · rw [fset_ne _ _ e, h3, C.idx i (by omega)]
      · exact fun h => e (cons_inj C (by omega) hk h)
      · exact fun h => by have := cons_inj C (by omega) (by omega) h; omega
  · dsimp only
    rw [Set.mem_diff, Set.mem_singleton_iff, C.mem]
    constructor
    · rintro ⟨⟨i, hi, rfl⟩, hne⟩
      have : i ≠ k := fun h => hne (by rw [h])
      by_cases e : i = s.n - 1
      · exact ⟨k, by omega, by rw [fset_same, e]⟩
      · exact ⟨i, by omega, fset_ne _ _ this⟩
    · rintro ⟨i, hi, rfl⟩
      by_cases e : i = k
      · subst e
        rw [fset_same]
        exact ⟨⟨s.n - 1, by omega, rfl⟩, fun h => by have := cons_inj C (by omega) hk h; omega⟩
      · rw [fset_ne _ _ e]
        exact ⟨⟨i, by omega, rfl⟩, fun h => e (cons_inj C (by omega) hk h)⟩
  · dsimp only
    by_cases e : w = s.h k
    · rw [e, h1]
    · have hw' : w ∉ X := fun h => hw ⟨h, e⟩
      rw [h3 w e, C.out w hw']
      exact fun h => hw' ((C.mem w).2 ⟨s.n - 1, by omega, h.symm⟩)

theorem removeMin_cons {act : Nat → Int} {s : Heap} {X : Set Nat} (C : Cons s X) {x : Nat} {t : Heap} (h : removeMin act s = some (x, t)) : x ∈ X ∧ Cons t (X \ {x}) := by
  unfold removeMin at h
  split at h
  · cases h
  · rename_i h0
    dsimp only at h
    simp only [Option.some.injEq, Prod.mk.injEq] at h
    obtain ⟨rfl, rfl⟩ := h
    have c := cons_cut C (k := 0) (by omega) (idx' := fset (fset s.idx (fset s.h 0 (s.h (s.n - 1)) 0) 0) (s.h 0) (-1)) (fset_same _ _ _) (fun hk => by
      rw [fset_ne, fset_same, fset_same]; rfl
      intro h; have := cons_inj C (by omega) (by omega) h; omega) (fun v h1 h2 => by
      rw [fset_ne _ _ h1, fset_same, fset_ne _ _ h2])
    refine ⟨(C.mem _).2 ⟨0, by omega, rfl⟩, ?_⟩
    split
    · rename_i h1
      exact (percolateDown_cons c (by show 0 < s.n - 1; omega)).1
    · exact c

theorem removeMin_ord {act : Nat → Int} {s : Heap} {X : Set Nat} (C : Cons s X) (O : OrdFrom act s 0) {x : Nat} {t : Heap} (h : removeMin act s = some (x, t)) :
    (∀ y ∈ X, act y ≤ act x) ∧ OrdFrom act t 0 := by
  unfold removeMin at h
  split at h
  · cases h
  · rename_i h0
    dsimp only at h
    simp only [Option.some.injEq, Prod.mk.injEq] at h
    obtain ⟨rfl, rfl⟩ := h
    have c := cons_cut C (k := 0) (by omega) (idx' := fset (fset s.idx (fset s.h 0 (s.h (s.n - 1)) 0) 0) (s.h 0) (-1)) (fset_same _ _ _) (fun hk => by
      rw [fset_ne, fset_same, fset_same]; rfl
      intro h; have := cons_inj C (by omega) (by omega) h; omega) (fun v h1 h2 => by
      rw [fset_ne _ _ h1, fset_same, fset_ne _ _ h2])
    refine ⟨fun y hy => ?_, ?_⟩
    · obtain ⟨i, hi, rfl⟩ := (C.mem y).1 hy
      exact root_max O i hi
    · split
      · refine percolateDown_ord c (by show 0 < s.n - 1; omega) ⟨le_rfl, fun i h1 h2 _ h3 => ?_, by omega⟩
        dsimp only at h2 ⊢
        have := par_lt h1
        rw [fset_ne _ _ (by omega), fset_ne _ _ h3]
        exact O i h1 (by omega) (Nat.zero_le _)
      · rename_i h1
        intro i h2 h3 _
        dsimp only at h1 h3
        omega

theorem remove_cons {act : Nat → Int} {s : Heap} {X : Set Nat} (C : Cons s X) {v : Nat} (hv : v ∈ X) : Cons (remove act s v) (X \ {v}) := by
  obtain ⟨h1, h2⟩ := cons_pos C hv
  unfold remove
  dsimp only
  generalize (s.idx v).toNat = k at *
  subst h2
  split
  · rename_i hk
    have c := cons_cut C (k := k) h1 (idx' := fset (fset s.idx (s.h k) (-1)) (fset s.h k (s.h (s.n - 1)) k) k) (by
      rw [fset_same, fset_ne, fset_same]
      intro h; have := cons_inj C h1 (by omega) h; omega) (fun _ => by rw [fset_same, fset_same]) (fun v h3 h4 => by
      rw [fset_same, fset_ne _ _ h4, fset_ne _ _ h3])
    exact (percolateDown_cons c hk).1
  · have hk : k = s.n - 1 := by omega
    have c := cons_cut C (k := k) h1 (idx' := fset s.idx (s.h k) (-1)) (fset_same _ _ _) (by omega) (fun v h3 _ => fset_ne _ _ h3)
    have e : fset s.h k (s.h (s.n - 1)) = s.h := by
      funext i; by_cases e : i = k
      · rw [e, fset_same, hk]
      · rw [fset_ne _ _ e]
    rwa [e] at c

theorem clearFold (h : Nat → Nat) : ∀ (l : List Nat) (idx : Nat → Int) (v : Nat), l.foldl (fun idx i => fset idx (h i) (-1)) idx v = if ∃ i ∈ l, h i = v then -1 else idx v
  | [], idx, v => by simp
  | i :: l, idx, v => by
    rw [List.foldl_cons, clearFold h l]
    by_cases e : ∃ j ∈ l, h j = v
    · rw [if_pos e, if_pos]; obtain ⟨j, hj, e⟩ := e; exact ⟨j, by simp [hj], e⟩
    · rw [if_neg e]
      by_cases e2 : h i = v
      · rw [if_pos ⟨i, by simp, e2⟩, ← e2, fset_same]
      · rw [fset_ne _ _ (fun h => e2 h.symm), if_neg]
        rintro ⟨j, hj, h'⟩
        rcases List.mem_cons.1 hj with rfl | hj
        · exact e2 h'
        · exact e ⟨j, hj, h'⟩

theorem clear_cons {s : Heap} {X : Set Nat} (C : Cons s X) : Cons (clear s) ∅ := by
  refine ⟨by simp [clear], by simp [clear], fun v _ => ?_⟩
  unfold clear
  dsimp only
  rw [clearFold]
  split
  · rfl
  · rename_i h
    apply C.out
    intro hv
    obtain ⟨i, hi, e⟩ := (C.mem v).1 hv
    exact h ⟨i, by simpa using hi, e⟩

theorem fill_cons : ∀ (ns : List Nat) {s : Heap} {X : Set Nat}, Cons s X → ns.Nodup → (∀ v ∈ ns, v ∉ X) → Cons (fill s ns) (X ∪ {v | v ∈ ns})
  | [], s, X, C, _, _ => by simpa [fill] using C
  | v :: ns, s, X, C, hn, hx => by
    rw [List.nodup_cons] at hn
    have := fill_cons ns (cons_append C (hx v (by simp))) hn.2 (fun w hw h => by
      rcases h with h | h
      · exact hn.1 (h ▸ hw)
      · exact hx w (by simp [hw]) h)
    have e : X ∪ {w | w ∈ v :: ns} = Set.insert v X ∪ {w | w ∈ ns} := by
      ext w
      show (w ∈ X ∨ w ∈ v :: ns) ↔ ((w = v ∨ w ∈ X) ∨ w ∈ ns)
      rw [List.mem_cons]
      constructor
      · rintro (h | h | h)
        · exact .inl (.inr h)
        · exact .inl (.inl h)
        · exact .inr h
      · rintro ((h | h) | h)
        · exact .inr (.inl h)
        · exact .inl h
        · exact .inr (.inr h)
    rw [e]; exact this

theorem heapify_cons {act : Nat → Int} {X : Set Nat} : ∀ (i : Nat) {s : Heap}, Cons s X → i ≤ s.n → Cons (heapify act s i) X
  | 0, s, C, _ => C
  | i + 1, s, C, h => by
    have := percolateDown_cons (act := act) C (j := i) (by omega)
    exact heapify_cons i this.1 (by rw [this.2]; omega)

theorem heapify_ord {act : Nat → Int} {X : Set Nat} : ∀ (i : Nat) {s : Heap}, Cons s X → i ≤ s.n → OrdFrom act s i → OrdFrom act (heapify act s i) 0
  | 0, s, C, _, O => O
  | i + 1, s, C, h, O => by
    have hc := percolateDown_cons (act := act) C (j := i) (by omega)
    refine heapify_ord i hc.1 (by rw [hc.2]; omega) (percolateDown_ord C (by omega) ⟨le_rfl, fun j h1 h2 h3 h4 => O j h1 h2 (by omega), fun h1 h2 => ?_⟩)
    have := par_lt h1; omega

theorem build_cons {act : Nat → Int} {s : Heap} {X : Set Nat} (C : Cons s X) {ns : List Nat} (hn : ns.Nodup) : Cons (build act s ns) {v | v ∈ ns} := by
  have c := fill_cons ns (clear_cons C) hn (by simp)
  rw [Set.empty_union] at c
  exact heapify_cons _ c (Nat.div_le_self _ _)

theorem build_ord {act : Nat → Int} {s : Heap} {X : Set Nat} (C : Cons s X) {ns : List Nat} (hn : ns.Nodup) : OrdFrom act (build act s ns) 0 := by
  have c := fill_cons ns (clear_cons C) hn (by simp)
  rw [Set.empty_union] at c
  refine heapify_ord _ c (Nat.div_le_self _ _) (fun i h1 h2 h3 => ?_)
  unfold par at h3; omega

/-! ### histories -/

/-- the state: heap, activities; specification: the set of elements, and whether the order is still guaranteed -/
structure HState where
  heap : Heap
  act : Nat → Int
  elems : Set Nat
  clean : Prop

def bumpAct (act : Nat → Int) (v : Nat) (d : Int) (g : Int → Int) : Nat → Int := fun x => g (if x = v then act v + d else act x)

/-- histories with the calls the solver makes: elements are inserted if absent, removed if present.  `bump v d g` is `varBumpActivityWithInc`
(core.go:681-694): the activity of `v` grows by `d`, all activities may be rescaled by a monotone `g`, and `decrease` is called if `v` is in the heap. -/
inductive HRun : HState → Prop
  | init (act : Nat → Int) : HRun ⟨newHeap, act, ∅, True⟩
  | insert {s} (v : Nat) : HRun s → inHeap s.heap v = false → HRun ⟨insert s.act s.heap v, s.act, Set.insert v s.elems, s.clean⟩
  | removeMin {s x t} : HRun s → removeMin s.act s.heap = some (x, t) → HRun ⟨t, s.act, s.elems \ {x}, s.clean⟩
  | remove {s} (v : Nat) : HRun s → inHeap s.heap v = true → HRun ⟨remove s.act s.heap v, s.act, s.elems \ {v}, False⟩
  | bump {s} (v : Nat) (d : Int) (g : Int → Int) : HRun s → 0 ≤ d → (∀ a b, a ≤ b → g a ≤ g b) →
      HRun ⟨if inHeap s.heap v then decrease (bumpAct s.act v d g) s.heap v else s.heap, bumpAct s.act v d g, s.elems, s.clean⟩
  | build {s} (ns : List Nat) : HRun s → ns.Nodup → HRun ⟨build s.act s.heap ns, s.act, {v | v ∈ ns}, True⟩
  | clear {s} : HRun s → HRun ⟨clear s.heap, s.act, ∅, True⟩

theorem hrun_inv {s : HState} (h : HRun s) : Cons s.heap s.elems ∧ (s.clean → OrdFrom s.act s.heap 0) := by
  induction h with
  | init act => exact ⟨cons_new, fun _ i h1 h2 => by simp [newHeap] at h2⟩
  | @insert s v _ hv ih =>
    have hv' : v ∉ s.elems := fun h => by rw [(cons_inHeap ih.1 v).2 h] at hv; cases hv
    exact ⟨insert_cons ih.1 hv', fun hc => insert_ord ih.1 (ih.2 hc) hv'⟩
  | removeMin _ hr ih => exact ⟨(removeMin_cons ih.1 hr).2, fun hc => (removeMin_ord ih.1 (ih.2 hc) hr).2⟩
  | remove v _ hv ih => exact ⟨remove_cons ih.1 ((cons_inHeap ih.1 v).1 hv), False.elim⟩
  | @bump s v d g _ hd hg ih =>
    have hm : ∀ x y, y ≠ v → s.act y ≤ s.act x → bumpAct s.act v d g y ≤ bumpAct s.act v d g x := by
      intro x y hy h
      unfold bumpAct
      apply hg
      rw [if_neg hy]
      split
      · rename_i e; subst e; omega
      · exact h
    dsimp only
    split
    · rename_i hv
      rw [cons_inHeap ih.1] at hv
      exact ⟨decrease_cons ih.1 hv, fun hc => decrease_ord ih.1 (ih.2 hc) hv hm⟩
    · rename_i hv
      rw [cons_inHeap ih.1] at hv
      refine ⟨ih.1, fun hc i h1 h2 h3 => hm _ _ (fun h => ?_) (ih.2 hc i h1 h2 h3)⟩
      exact hv (h ▸ (ih.1.mem _).2 ⟨i, h2, rfl⟩)
  | build ns _ hn ih => exact ⟨build_cons ih.1 hn, fun _ => build_ord ih.1 hn⟩
  | clear _ ih => exact ⟨clear_cons ih.1, fun _ i h1 h2 => by simp [clear] at h2⟩

/-- **C39 (heap).** In every history the heap contains exactly the elements inserted and not yet removed, each once: the slice is injective, and `inHeap`
answers for the set. -/
theorem C39_heap_elements {s : HState} (h : HRun s) :
    (∀ v, inHeap s.heap v = true ↔ v ∈ s.elems) ∧ (∀ v, v ∈ s.elems ↔ ∃ i, i < s.heap.n ∧ s.heap.h i = v) ∧
    (∀ i j, i < s.heap.n → j < s.heap.n → s.heap.h i = s.heap.h j → i = j) :=
  have I := (hrun_inv h).1
  ⟨cons_inHeap I, I.mem, fun _ _ hi hj => cons_inj I hi hj⟩

/-- **C39 (heap).** In histories without `remove` since the heap was last built or cleared, `removeMin` succeeds exactly on non-empty heaps and returns an
element of maximal activity. -/
theorem C39_heap_max_partial {s : HState} (h : HRun s) (hc : s.clean) :
    (removeMin s.act s.heap = none ↔ s.elems = ∅) ∧ ∀ x t, removeMin s.act s.heap = some (x, t) → x ∈ s.elems ∧ ∀ y ∈ s.elems, s.act y ≤ s.act x := by
  obtain ⟨C, O⟩ := hrun_inv h
  refine ⟨?_, fun x t hr => ⟨(removeMin_cons C hr).1, (removeMin_ord C (O hc) hr).1⟩⟩
  unfold removeMin
  split
  · rename_i h0
    simp only [true_iff, Set.eq_empty_iff_forall_notMem]
    intro v hv
    obtain ⟨i, hi, _⟩ := (C.mem v).1 hv
    omega
  · rename_i h0
    simp only [reduceCtorEq, false_iff]
    intro he
    have : s.heap.h 0 ∈ s.elems := (C.mem _).2 ⟨0, by omega, rfl⟩
    rw [he] at this; exact this

/-- heaps are compared by their slices in examples -/
def slice (s : Heap) : List Nat := (List.range s.n).map s.h

/-- activities of the elements `0 … 6` -/
def exAct : Nat → Int := fun v => [10, 5, 9, 4, 3, 6, 8].getD v 0
def exHeap : Heap := [0, 1, 2, 3, 4, 5, 6].foldl (insert exAct) newHeap
def exHeap1 : Heap := remove exAct exHeap 3
def exHeap2 : Heap := ((removeMin exAct exHeap1).map (·.2)).getD newHeap
def exHeap3 : Heap := ((removeMin exAct exHeap2).map (·.2)).getD newHeap

theorem exRun : ∃ X : Set Nat, HRun ⟨exHeap, exAct, X, True⟩ ∧ ∀ v, v ∈ X ↔ v ∈ [0, 1, 2, 3, 4, 5, 6] := by
  refine ⟨_, .insert 6 (.insert 5 (.insert 4 (.insert 3 (.insert 2 (.insert 1 (.insert 0 (.init exAct) ?_) ?_) ?_) ?_) ?_) ?_) ?_, ?_⟩ <;> try decide +kernel
  intro v
  show (v = 6 ∨ v = 5 ∨ v = 4 ∨ v = 3 ∨ v = 2 ∨ v = 1 ∨ v = 0 ∨ False) ↔ _
  simp; omega
example : slice exHeap = [0, 1, 2, 3, 4, 5, 6] ∧ slice ((removeMin exAct exHeap).map (·.2) |>.getD newHeap) = [2, 1, 6, 3, 4, 5] := by decide +kernel

theorem removeMin_some {s : Heap} {x : Nat} {t : Heap} (h : s.n ≠ 0) (h1 : s.h 0 = x) (h2 : t = ((removeMin exAct s).map (·.2)).getD newHeap) : removeMin exAct s = some (x, t) := by
  unfold removeMin at h2 ⊢
  rw [if_neg h] at h2 ⊢
  subst h1 h2; rfl

/-- **C39 is false after `remove`**, which only percolates down.  Removing element 3 puts element 6 (activity 8) below element 1 (activity 5); after two
`removeMin` the next one returns element 5 (activity 6) although element 6 is still there.  `LoadState` calls `remove`, so that the solver does not always
branch on a variable of maximal activity. -/
theorem C39_heap_remove_false : ∃ s : HState, HRun s ∧ ∃ x t, removeMin s.act s.heap = some (x, t) ∧ ∃ y ∈ s.elems, s.act x < s.act y := by
  obtain ⟨X, hX, hm⟩ := exRun
  have h1 := HRun.remove 3 hX (by show inHeap exHeap 3 = true; decide +kernel)
  have h2 := HRun.removeMin h1 (removeMin_some (s := exHeap1) (x := 0) (t := exHeap2) (by decide +kernel) (by decide +kernel) rfl)
  have h3 := HRun.removeMin h2 (removeMin_some (s := exHeap2) (x := 2) (t := exHeap3) (by decide +kernel) (by decide +kernel) rfl)
  refine ⟨_, h3, 5, _, removeMin_some (s := exHeap3) (by decide +kernel) (by decide +kernel) rfl, 6, ?_, by show exAct 5 < exAct 6; decide +kernel⟩
  refine ⟨⟨⟨(hm 6).2 (by decide), ?_⟩, ?_⟩, ?_⟩ <;> simp

end Verif.Data
