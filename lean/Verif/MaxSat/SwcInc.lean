import Verif.MaxSat.Swc

/-! # The incremental sequential weight counter (enc_swc.go:112-330) -/

namespace Verif.MaxAlg

open Verif.MaxSat (litVal clauseVal costC)

/-- the counter on a solver that extends `s0`, with blocking literal `b` -/
structure Inc (s0 s : Sol) (sw : Swc) (b : Nat) : Prop where
  ext : Ext s0 s
  wf : s.WF
  cov : SeqCov s sw.aux sw.lits sw.rhs
  bound : SeqBound s sw.aux sw.lits sw.rhs (some b)
  two : 2 ≤ sw.lits.length
  lits : ∀ x ∈ sw.lits, x.1 / 2 < s0.n ∧ 0 < x.2 ∧ x.2 ≤ sw.rhs
  below : ∀ i j, 1 ≤ i → i ≤ sw.lits.length → 1 ≤ j → j ≤ sw.rhs → sw.aux i j / 2 < s.n
  blk : sw.blk = some b
  old : s0.n ≤ b / 2
  lt : b / 2 < s.n
  complete : ∀ u : Nat → Bool, s0.Holds u → ∀ v : Bool, (v = false → wsum u sw.lits ≤ sw.rhs) →
    ∃ u' : Nat → Bool, (∀ x < s0.n, u' x = u x) ∧ s.Holds u' ∧ SeqExact u' sw.aux sw.lits sw.rhs ∧ litVal u' b = v

/-- one more value -/
def setVar (u : Nat → Bool) (x : Nat) (v : Bool) : Nat → Bool := fun y => if y = x then v else u y

theorem setVar_ne {u : Nat → Bool} {x y : Nat} {v : Bool} (h : y ≠ x) : setVar u x v y = u y := by unfold setVar; rw [if_neg h]

theorem litVal_setVar {u : Nat → Bool} {x : Nat} {v : Bool} : litVal (setVar u x v) (2 * x) = v := by
  rw [litVal_two]; unfold setVar; rw [if_pos rfl]

/-- the first encoding -/
theorem encodeInc_inc {s0 : Sol} (hw : s0.WF) {sw : Swc} {ys : List (Nat × Nat)} {rhs : Nat} (h2 : 2 ≤ ys.length) (hy : ∀ x ∈ ys, x.1 / 2 < s0.n ∧ 0 < x.2 ∧ x.2 ≤ rhs) (un : List (Nat × Nat)) :
    Inc s0 ⟨s0.n + ys.length * rhs + 1, seqRows (tab s0.n rhs 0 0) ys rhs (some (2 * (s0.n + ys.length * rhs))) (fun i _ _ => decide (2 ≤ i)) (fun _ j w => decide (j ≤ w))
        (fun i j w => decide (2 ≤ i) && decide (j + w ≤ rhs)) (fun i => decide (2 ≤ i)) ++ s0.cs⟩
      { sw with has := true, units := un, lits := ys, aux := tab s0.n rhs 0 0, rhs := rhs, blk := some (2 * (s0.n + ys.length * rhs)) } (2 * (s0.n + ys.length * rhs)) := by
  have hT : ∀ i j, 1 ≤ i → i ≤ ys.length → 1 ≤ j → j ≤ rhs → tab s0.n rhs 0 0 i j / 2 < s0.n + ys.length * rhs := fun i j a b c d => (tab_lt (by omega) (by omega) (by omega) (by omega)).2
  refine ⟨⟨by dsimp only; omega, fun c hc => List.mem_append_right _ hc⟩, ?_, enc_cov.1, enc_cov.2, h2, hy, fun i j a b c d => Nat.lt_succ_of_lt (hT i j a b c d), rfl, by omega, by dsimp only; omega, ?_⟩
  · intro c hc l hl
    show l / 2 < s0.n + ys.length * rhs + 1
    rcases List.mem_append.1 hc with hc | hc
    · exact seqRows_wf (blk := some (2 * (s0.n + ys.length * rhs))) (fun i j a b c d => Nat.lt_succ_of_lt (hT i j a b c d)) (fun x hx => by have := (hy x hx).1; omega)
        (fun i j w h => of_decide_eq_true h) (fun i j w h => by simpa using h) (fun i h => of_decide_eq_true h) (fun x hx => (hy x hx).2) (fun b h => by
          rw [Option.mem_def] at h; injection h with h; omega) c hc l hl
    · have := hw c hc l hl; omega
  · intro u hu v hv
    have hbl : ∀ x ∈ ys, x.1 / 2 < s0.n := fun x hx => (hy x hx).1
    have hex := exact_setTab (u := u) hbl rhs
    obtain ⟨u1, hu1⟩ : ∃ u1, setTab u s0.n ys.length rhs (fun i j => decide (j + 1 ≤ psum u ys (i + 1))) = u1 := ⟨_, rfl⟩
    rw [hu1] at hex
    have ag : ∀ x < s0.n, setVar u1 (s0.n + ys.length * rhs) v x = u x := fun x hx => by rw [setVar_ne (by omega), ← hu1, setTab_old hx]
    have ex : SeqExact (setVar u1 (s0.n + ys.length * rhs) v) (tab s0.n rhs 0 0) ys rhs := fun i j a b c d => by
      rw [litVal_congr (w := u1) (setVar_ne (by have := hT i j a b c d; omega)), hex i j a b c d, psum_congr (u := setVar u1 (s0.n + ys.length * rhs) v) (v := u1) fun x hx => setVar_ne (by have := hbl x hx; omega)]
    refine ⟨_, ag, fun c hc => ?_, ex, litVal_setVar⟩
    rcases List.mem_append.1 hc with hc | hc
    · refine seqRows_holds ex (fun i j w h => of_decide_eq_true h) (fun i j w h => of_decide_eq_true h) (fun i j w h => by simpa using h) (fun i h => of_decide_eq_true h) (fun x hx => (hy x hx).2) ?_ c hc
      cases v with
      | true => exact .inl ⟨_, rfl, litVal_setVar⟩
      | false => exact .inr (by rw [wsum_congr fun x hx => ag _ (hbl x hx)]; exact hv rfl)
    · exact (Sol.holds_congr hw fun x hx => (ag x hx).symm).1 hu c hc

/-- a larger bound -/
theorem updateInc_inc {s0 s : Sol} {sw : Swc} {b rhs : Nat} (h : Inc s0 s sw b) (hr : sw.rhs < rhs) :
    ∃ b', Inc s0 (sw.updateInc s rhs).2 (sw.updateInc s rhs).1 b' ∧ (sw.updateInc s rhs).1.lits = sw.lits ∧ (sw.updateInc s rhs).1.units = sw.units ∧ (sw.updateInc s rhs).1.has = sw.has ∧
      (sw.updateInc s rhs).1.rhs = rhs := by
  obtain ⟨hb0, hb1⟩ := h.ext
  have hx' : ∀ x ∈ sw.lits, 0 < x.2 ∧ x.2 ≤ rhs := fun x hx => by have := h.lits x hx; omega
  have hbl : ∀ x ∈ sw.lits, x.1 / 2 < s.n := fun x hx => by have := h.lits x hx; omega
  obtain ⟨aux, ha⟩ : ∃ aux : Nat → Nat → Nat, (fun i j => if sw.rhs < j then tab s.n (rhs - sw.rhs) 0 sw.rhs i j else sw.aux i j) = aux := ⟨_, rfl⟩
  have aOld : ∀ i j, j ≤ sw.rhs → aux i j = sw.aux i j := fun i j hj => by rw [← ha]; dsimp only; rw [if_neg (by omega)]
  have aNew : ∀ i j, sw.rhs < j → aux i j = tab s.n (rhs - sw.rhs) 0 sw.rhs i j := fun i j hj => by rw [← ha]; dsimp only; rw [if_pos hj]
  have hT : ∀ i j, 1 ≤ i → i ≤ sw.lits.length → sw.rhs < j → j ≤ rhs → tab s.n (rhs - sw.rhs) 0 sw.rhs i j / 2 < s.n + sw.lits.length * (rhs - sw.rhs) :=
    fun i j a b c d => (tab_lt (by omega) (by omega) (by omega) (by omega)).2
  have hbelow : ∀ i j, 1 ≤ i → i ≤ sw.lits.length → 1 ≤ j → j ≤ rhs → aux i j / 2 < s.n + sw.lits.length * (rhs - sw.rhs) := fun i j a c d e => by
    by_cases hj : sw.rhs < j
    · rw [aNew i j hj]; exact hT i j a c hj e
    · rw [aOld i j (by omega)]
      have := h.below i j a c d (by omega); omega
  unfold Swc.updateInc
  dsimp only
  rw [h.blk]
  show ∃ b', Inc s0 ⟨s.n + sw.lits.length * (rhs - sw.rhs) + 1, seqRows _ sw.lits rhs (some (2 * (s.n + sw.lits.length * (rhs - sw.rhs)))) _ _ _ _ ++ ([[b]] ++ s.cs)⟩ _ b' ∧ _
  have ha' : (fun i j => if sw.rhs < j then tab (s.addAll ((some b).toList.map fun b => [b])).n (rhs - sw.rhs) 0 sw.rhs i j else sw.aux i j) = aux := ha
  rw [ha']
  show ∃ b', Inc s0 _ { sw with aux := aux, blk := some (2 * (s.n + sw.lits.length * (rhs - sw.rhs))), rhs := rhs } b' ∧ _
  refine ⟨2 * (s.n + sw.lits.length * (rhs - sw.rhs)), ⟨⟨by dsimp only; omega, fun c hc => List.mem_append_right _ (List.mem_cons_of_mem _ (hb1 c hc))⟩, ?_, ⟨?_, ?_, ?_⟩, ?_, h.two, ?_, ?_, rfl,
    by omega, by dsimp only; omega, ?_⟩, rfl, rfl, rfl, rfl⟩
  · intro c hc l hl
    show l / 2 < s.n + sw.lits.length * (rhs - sw.rhs) + 1
    rcases List.mem_append.1 hc with hc | hc
    · exact seqRows_wf (blk := some (2 * (s.n + sw.lits.length * (rhs - sw.rhs)))) (fun i j a b c d => Nat.lt_succ_of_lt (hbelow i j a b c d)) (fun x hx => by have := hbl x hx; omega)
        (fun i j w h => by simp only [Bool.and_eq_true, decide_eq_true_eq] at h; omega) (fun i j w h => by simp only [Bool.and_eq_true, decide_eq_true_eq] at h; omega)
        (fun i h => of_decide_eq_true h) hx' (fun b h => by rw [Option.mem_def] at h; injection h with h; omega) c hc l hl
    · rcases List.mem_cons.1 hc with rfl | hc
      · rw [List.mem_singleton.1 hl]
        have := h.lt; omega
      · have := h.wf c hc l hl; omega
  · intro i x j hi hx h1 h2
    by_cases hj : sw.rhs < j
    · exact List.mem_append_left _ (mem_seqRows.2 ⟨i, x, by omega, hx, .inl ⟨j, h1, h2, .inl ⟨by simp; omega, rfl⟩⟩⟩)
    · have := h.cov.A i x j hi hx h1 (by omega)
      unfold seqA at this ⊢
      dsimp only
      rw [aOld _ _ (by omega), aOld _ _ (by omega)]
      exact List.mem_append_right _ (List.mem_cons_of_mem _ this)
  · intro i x j hi hx h1 h2 h3
    have hle := (h.lits x (List.mem_of_getElem? hx)).2.2
    have := h.cov.B i x j hi hx h1 (by omega) h3
    unfold seqB at this ⊢
    dsimp only
    rw [aOld _ _ (by omega)]
    exact List.mem_append_right _ (List.mem_cons_of_mem _ this)
  · intro i x j hi hx h1 h2
    have h2 : j + x.2 ≤ rhs := h2
    by_cases hj : sw.rhs < j + x.2
    · exact List.mem_append_left _ (mem_seqRows.2 ⟨i, x, by omega, hx, .inl ⟨j, h1, by omega, .inr (.inr ⟨by simp; omega, rfl⟩)⟩⟩)
    · have := h.cov.C i x j hi hx h1 (by omega)
      unfold seqC at this ⊢
      dsimp only
      rw [aOld _ _ (by omega), aOld _ _ (by omega)]
      exact List.mem_append_right _ (List.mem_cons_of_mem _ this)
  · intro i x hi hx
    exact List.mem_append_left _ (mem_seqRows.2 ⟨i, x, by omega, hx, .inr ⟨decide_eq_true hi, rfl⟩⟩)
  · intro x hx
    have := h.lits x hx
    dsimp only; omega
  · intro i j a c d e
    exact Nat.lt_succ_of_lt (hbelow i j a c d e)
  · intro u hu v hv
    obtain ⟨u1, g1, g2, g3, g4⟩ := h.complete u hu true (fun e => nomatch e)
    obtain ⟨u2, hu2⟩ : ∃ u2, setTab u1 s.n sw.lits.length (rhs - sw.rhs) (fun i j => decide (sw.rhs + j + 1 ≤ psum u1 sw.lits (i + 1))) = u2 := ⟨_, rfl⟩
    have ag : ∀ x < s.n, setVar u2 (s.n + sw.lits.length * (rhs - sw.rhs)) v x = u1 x := fun x hx => by rw [setVar_ne (by omega), ← hu2, setTab_old hx]
    have ex : SeqExact (setVar u2 (s.n + sw.lits.length * (rhs - sw.rhs)) v) aux sw.lits rhs := fun i j a c d e => by
      rw [psum_congr (v := u1) fun x hx => ag _ (hbl x hx)]
      by_cases hj : sw.rhs < j
      · rw [aNew i j hj, litVal_congr (w := u2) (setVar_ne (by have := hT i j a c hj e; omega)), ← hu2, litVal_setTab (by omega) (by omega) (by omega) (by omega)]
        congr 1
        rw [show i - (0 + 1) + 1 = i by omega, show sw.rhs + (j - (sw.rhs + 1)) + 1 = j by omega]
      · rw [aOld i j (by omega), litVal_congr (w := u1) (ag _ (h.below i j a c d (by omega))), g3 i j a c d (by omega)]
    refine ⟨_, fun x hx => by rw [ag x (by omega), g1 x hx], fun c hc => ?_, ex, litVal_setVar⟩
    rcases List.mem_append.1 hc with hc | hc
    · refine seqRows_holds ex (fun i j w h => by simp only [Bool.and_eq_true, decide_eq_true_eq] at h; omega) (fun i j w h => absurd h Bool.false_ne_true)
        (fun i j w h => by simp only [Bool.and_eq_true, decide_eq_true_eq] at h; omega) (fun i h => of_decide_eq_true h) hx' ?_ c hc
      cases v with
      | true => exact .inl ⟨_, rfl, litVal_setVar⟩
      | false =>
        refine .inr ?_
        rw [wsum_congr fun x hx => ag _ (hbl x hx), wsum_congr fun x hx => g1 _ (h.lits x hx).1]; exact hv rfl
    · rcases List.mem_cons.1 hc with rfl | hc
      · exact clauseVal_iff.2 ⟨b, List.mem_singleton.2 rfl, by rw [litVal_congr (w := u1) (ag _ h.lt)]; exact g4⟩
      · exact (Sol.holds_congr h.wf fun x hx => (ag x hx).symm).1 g2 c hc

/-- more literals -/
theorem join_inc {s0 s : Sol} {sw : Swc} {b : Nat} (h : Inc s0 s sw b) {xs : List (Nat × Nat)} (hx : ∀ x ∈ sw.units ++ xs, x.1 / 2 < s0.n ∧ 0 < x.2) :
    Inc s0 (sw.join s xs).2 (sw.join s xs).1 b ∧ (sw.join s xs).1.lits = sw.lits ++ small (sw.units ++ xs) sw.rhs ∧ (sw.join s xs).1.units = big (sw.units ++ xs) sw.rhs ∧
      (sw.join s xs).1.has = sw.has ∧ (sw.join s xs).1.rhs = sw.rhs := by
  obtain ⟨ys, hys⟩ : ∃ ys, small (sw.units ++ xs) sw.rhs = ys := ⟨_, rfl⟩
  have hy : ∀ x ∈ ys, x.1 / 2 < s0.n ∧ 0 < x.2 ∧ x.2 ≤ sw.rhs := fun x hm => by
    rw [← hys] at hm
    have := mem_small.1 hm
    exact ⟨(hx x this.1).1, (hx x this.1).2, this.2⟩
  unfold Swc.join
  dsimp only
  rw [hys]
  by_cases h0 : ys = []
  · rw [if_pos h0, h0]
    exact ⟨⟨h.ext, h.wf, h.cov, h.bound, h.two, h.lits, h.below, h.blk, h.old, h.lt, h.complete⟩, by simp, rfl, rfl, rfl⟩
  rw [if_neg h0]
  obtain ⟨hb0, hb1⟩ := h.ext
  have two := h.two
  obtain ⟨n, hn⟩ : ∃ n, sw.lits.length = n := ⟨_, rfl⟩
  obtain ⟨aux, ha⟩ : ∃ aux : Nat → Nat → Nat, (fun i j => if sw.lits.length < i then tab s.n sw.rhs sw.lits.length 0 i j else sw.aux i j) = aux := ⟨_, rfl⟩
  rw [ha]
  rw [hn] at ha two ⊢
  have aOld : ∀ i j, i ≤ n → aux i j = sw.aux i j := fun i j hj => by rw [← ha]; dsimp only; rw [if_neg (by omega)]
  have aNew : ∀ i j, n < i → aux i j = tab s.n sw.rhs n 0 i j := fun i j hj => by rw [← ha]; dsimp only; rw [if_pos hj]
  have hT : ∀ i j, n < i → i ≤ n + ys.length → 1 ≤ j → j ≤ sw.rhs → tab s.n sw.rhs n 0 i j / 2 < s.n + ys.length * sw.rhs :=
    fun i j a b c d => (tab_lt (by omega) (by omega) (by omega) (by omega)).2
  have hall : ∀ x ∈ sw.lits ++ ys, x.1 / 2 < s0.n ∧ 0 < x.2 ∧ x.2 ≤ sw.rhs := fun x hm => by
    rcases List.mem_append.1 hm with hm | hm
    · exact h.lits x hm
    · exact hy x hm
  have hbl : ∀ x ∈ sw.lits ++ ys, x.1 / 2 < s.n := fun x hx => by have := hall x hx; omega
  have hlen : (sw.lits ++ ys).length = n + ys.length := by rw [List.length_append, hn]
  have hbelow : ∀ i j, 1 ≤ i → i ≤ (sw.lits ++ ys).length → 1 ≤ j → j ≤ sw.rhs → aux i j / 2 < s.n + ys.length * sw.rhs := fun i j a c d e => by
    rw [hlen] at c
    by_cases hi : n < i
    · rw [aNew i j hi]; exact hT i j hi c d e
    · rw [aOld i j (by omega)]
      have := h.below i j a (by omega) d (by omega); omega
  have hget : ∀ i, 1 ≤ i → i ≤ n → (sw.lits ++ ys)[i - 1]? = sw.lits[i - 1]? := fun i h1 h2 => List.getElem?_append_left (by omega)
  refine ⟨⟨⟨by dsimp only; omega, fun c hc => List.mem_append_right _ (hb1 c hc)⟩, ?_, ⟨?_, ?_, ?_⟩, ?_, by dsimp only; omega, hall, hbelow, h.blk, h.old, by have := h.lt; dsimp only; omega, ?_⟩,
    rfl, rfl, rfl, rfl⟩
  · intro c hc l hl
    show l / 2 < s.n + ys.length * sw.rhs
    rcases List.mem_append.1 hc with hc | hc
    · exact seqRows_wf hbelow (fun x hx => by have := hbl x hx; omega)
        (fun i j w h => by simp only [decide_eq_true_eq] at h; omega) (fun i j w h => by simp only [Bool.and_eq_true, decide_eq_true_eq] at h; omega)
        (fun i h => by simp only [decide_eq_true_eq] at h; omega) (fun x hx => (hall x hx).2) (fun b' hb' => by
          rw [h.blk, Option.mem_def] at hb'; injection hb' with e
          have := h.lt; omega) c hc l hl
    · have := h.wf c hc l hl; omega
  · intro i x j hi hx h1 h2
    by_cases hj : n ≤ i
    · exact List.mem_append_left _ (mem_seqRows.2 ⟨i, x, by omega, hx, .inl ⟨j, h1, h2, .inl ⟨decide_eq_true hj, rfl⟩⟩⟩)
    · dsimp only at hx
      rw [hget i (by omega) (by omega)] at hx
      have := h.cov.A i x j hi hx h1 (by dsimp only at h2; omega)
      unfold seqA at this ⊢
      dsimp only
      rw [aOld _ _ (by omega), aOld _ _ (by omega)]
      exact List.mem_append_right _ this
  · intro i x j hi hx h1 h2 h3
    by_cases hj : n ≤ i
    · exact List.mem_append_left _ (mem_seqRows.2 ⟨i, x, by omega, hx, .inl ⟨j, h1, h2, .inr (.inl ⟨by simp; omega, rfl⟩)⟩⟩)
    · dsimp only at hx
      rw [hget i (by omega) (by omega)] at hx
      have := h.cov.B i x j hi hx h1 (by dsimp only at h2; omega) h3
      unfold seqB at this ⊢
      dsimp only
      rw [aOld _ _ (by omega)]
      exact List.mem_append_right _ this
  · intro i x j hi hx h1 h2
    have h2 : j + x.2 ≤ sw.rhs := h2
    by_cases hj : n ≤ i
    · exact List.mem_append_left _ (mem_seqRows.2 ⟨i, x, by omega, hx, .inl ⟨j, h1, by omega, .inr (.inr ⟨by simp; omega, rfl⟩)⟩⟩)
    · dsimp only at hx
      rw [hget i (by omega) (by omega)] at hx
      have := h.cov.C i x j hi hx h1 h2
      unfold seqC at this ⊢
      dsimp only
      rw [aOld _ _ (by omega), aOld _ _ (by omega)]
      exact List.mem_append_right _ this
  · intro i x hi hx
    by_cases hj : n < i
    · rw [← h.blk]
      exact List.mem_append_left _ (mem_seqRows.2 ⟨i, x, by omega, hx, .inr ⟨decide_eq_true hj, rfl⟩⟩)
    · dsimp only at hx
      rw [hget i (by omega) (by omega)] at hx
      have := h.bound i x hi hx
      unfold seqD at this ⊢
      dsimp only
      rw [aOld _ _ (by omega)]
      exact List.mem_append_right _ this
  · intro u hu v hv
    have hv : v = false → wsum u (sw.lits ++ ys) ≤ sw.rhs := hv
    obtain ⟨u1, g1, g2, g3, g4⟩ := h.complete u hu v fun e => by
      have := hv e
      rw [wsum_append] at this; omega
    obtain ⟨u2, hu2⟩ : ∃ u2, setTab u1 s.n ys.length sw.rhs (fun i j => decide (j + 1 ≤ psum u1 (sw.lits ++ ys) (n + i + 1))) = u2 := ⟨_, rfl⟩
    have ag : ∀ x < s.n, u2 x = u1 x := fun x hx => by rw [← hu2, setTab_old hx]
    have ex : SeqExact u2 aux (sw.lits ++ ys) sw.rhs := fun i j a c d e => by
      rw [psum_congr (v := u1) fun x hx => ag _ (hbl x hx)]
      by_cases hi : n < i
      · rw [aNew i j hi, ← hu2, litVal_setTab (by omega) (by omega) (by omega) (by omega)]
        congr 1
        rw [show n + (i - (n + 1)) + 1 = i by omega, show j - (0 + 1) + 1 = j by omega]
      · rw [aOld i j (by omega), litVal_congr (w := u1) (ag _ (h.below i j a (by omega) d e)), g3 i j a (by omega) d e]
        unfold psum
        rw [List.take_append_of_le_length (by omega)]
    refine ⟨u2, fun x hx => by rw [ag x (by omega), g1 x hx], fun c hc => ?_, ex, by rw [litVal_congr (w := u1) (ag _ h.lt)]; exact g4⟩
    rcases List.mem_append.1 hc with hc | hc
    · refine seqRows_holds ex (fun i j w h => by simp only [decide_eq_true_eq] at h; omega) (fun i j w h => by simp only [Bool.and_eq_true, decide_eq_true_eq] at h; omega)
        (fun i j w h => by simp only [Bool.and_eq_true, decide_eq_true_eq] at h; omega) (fun i h => by simp only [decide_eq_true_eq] at h; omega) (fun x hx => (hall x hx).2) ?_ c hc
      cases v with
      | true => exact .inl ⟨b, by rw [h.blk]; rfl, by rw [litVal_congr (w := u1) (ag _ h.lt)]; exact g4⟩
      | false =>
        refine .inr ?_
        rw [wsum_congr fun x hx => ag _ (hbl x hx), wsum_congr fun x hx => g1 _ (hall x hx).1]; exact hv rfl
    · exact (Sol.holds_congr h.wf fun x hx => (ag x hx).symm).1 g2 c hc

/-- the encoding between two calls: `act` are the objective literals seen so far, `as` the assumptions of the encoding -/
structure PbInc (s0 s : Sol) (sw : Swc) (act : List (Nat × Nat)) (lb : Nat) (as : List Nat) : Prop where
  lits : ∀ x ∈ act, x.1 / 2 < s0.n ∧ 0 < x.2
  off : sw.has = false → s = s0 ∧ sw.units.Perm act ∧ as = (big sw.units lb).map (fun x => neg x.1) ∧ (small sw.units lb).length ≤ 1
  on : sw.has = true → sw.rhs = lb ∧ (sw.lits ++ sw.units).Perm act ∧ (∀ x ∈ sw.units, lb < x.2) ∧ ∃ b, Inc s0 s sw b ∧ as = neg b :: sw.units.map fun x => neg x.1

theorem PbInc.perm {s0 s : Sol} {sw : Swc} {act act' : List (Nat × Nat)} {lb : Nat} {as : List Nat} (h : PbInc s0 s sw act lb as) (hp : act.Perm act') : PbInc s0 s sw act' lb as :=
  ⟨fun x hx => h.lits x (hp.mem_iff.2 hx), fun e => let ⟨a, b, c, d⟩ := h.off e; ⟨a, b.trans hp, c, d⟩, fun e => let ⟨a, b, c⟩ := h.on e; ⟨a, b.trans hp, c⟩⟩

theorem mem_big {xs : List (Nat × Nat)} {rhs : Nat} {x : Nat × Nat} : x ∈ big xs rhs ↔ x ∈ xs ∧ rhs < x.2 := by
  unfold big
  rw [List.mem_filter]
  simp

theorem small_big_perm (xs : List (Nat × Nat)) (rhs : Nat) : (small xs rhs ++ big xs rhs).Perm xs := List.filter_append_perm _ _

theorem wsum_small_big (u : Nat → Bool) (xs : List (Nat × Nat)) (rhs : Nat) : wsum u xs = wsum u (small xs rhs) + wsum u (big xs rhs) := wsum_filter u _ xs

/-- the encoding at the start -/
theorem PbInc.start {s0 : Sol} {sw : Swc} (h : sw.has = false) (h' : sw.units = []) : PbInc s0 s0 sw [] 0 [] :=
  ⟨fun x hx => (nomatch hx), fun _ => by rw [h']; exact ⟨rfl, .rfl, rfl, Nat.zero_le _⟩, fun e => by rw [h] at e; cases e⟩

theorem PbInc.ext {s0 s : Sol} {sw : Swc} {act : List (Nat × Nat)} {lb : Nat} {as : List Nat} (h : PbInc s0 s sw act lb as) : Ext s0 s := by
  cases e : sw.has with
  | false => rw [(h.off e).1]; exact Ext.refl _
  | true => obtain ⟨-, -, -, b, hb, -⟩ := h.on e; exact hb.ext

theorem PbInc.wf {s0 s : Sol} {sw : Swc} {act : List (Nat × Nat)} {lb : Nat} {as : List Nat} (h : PbInc s0 s sw act lb as) (hw : s0.WF) : s.WF := by
  cases e : sw.has with
  | false => rw [(h.off e).1]; exact hw
  | true => obtain ⟨-, -, -, b, hb, -⟩ := h.on e; exact hb.wf

/-- the variables of the assumptions -/
theorem PbInc.asm {s0 s : Sol} {sw : Swc} {act : List (Nat × Nat)} {lb : Nat} {as : List Nat} (h : PbInc s0 s sw act lb as) : ∀ a ∈ as, a / 2 < s.n ∧ ((∃ x ∈ act, a = neg x.1) ∨ s0.n ≤ a / 2) := by
  intro a ha
  cases e : sw.has with
  | false =>
    obtain ⟨h1, h2, h3, -⟩ := h.off e
    rw [h3, List.mem_map] at ha
    obtain ⟨x, hx, rfl⟩ := ha
    have hx := h2.mem_iff.1 (mem_big.1 hx).1
    exact ⟨by rw [neg_div, h1]; exact (h.lits x hx).1, .inl ⟨x, hx, rfl⟩⟩
  | true =>
    obtain ⟨-, h2, -, b, hb, h3⟩ := h.on e
    rw [h3] at ha
    rcases List.mem_cons.1 ha with rfl | ha
    · rw [neg_div]; exact ⟨hb.lt, .inr hb.old⟩
    · obtain ⟨x, hx, rfl⟩ := List.mem_map.1 ha
      have hx := h2.mem_iff.1 (List.mem_append_right _ hx)
      exact ⟨by rw [neg_div]; have := (h.lits x hx).1; have := hb.ext.n; omega, .inl ⟨x, hx, rfl⟩⟩

/-- the assumptions enforce the bound -/
theorem PbInc.sound {s0 s : Sol} {sw : Swc} {act : List (Nat × Nat)} {lb : Nat} {as : List Nat} (h : PbInc s0 s sw act lb as) {u : Nat → Bool} (hu : s.Holds u) (ha : ∀ a ∈ as, litVal u a = true) :
    wsum u act ≤ lb := by
  have hn : ∀ {l}, litVal u (neg l) = true → litVal u l = false := fun {l} e => by rw [litVal_neg] at e; simpa using e
  cases e : sw.has with
  | false =>
    obtain ⟨-, h2, h3, h4⟩ := h.off e
    rw [← wsum_perm h2, wsum_small_big u _ lb, wsum_eq_zero (xs := big sw.units lb) fun x hx => hn (ha _ (by rw [h3]; exact List.mem_map_of_mem hx))]
    match hs : small sw.units lb, h4 with
    | [], _ => exact Nat.zero_le _
    | [(l, w)], _ =>
      have := (mem_small.1 (by rw [hs]; exact List.mem_singleton.2 rfl : (l, w) ∈ small sw.units lb)).2
      simp only [wsum]
      split <;> simp_all
  | true =>
    obtain ⟨h1, h2, -, b, hb, h3⟩ := h.on e
    rw [h3] at ha
    rw [← wsum_perm h2, wsum_append, wsum_eq_zero (xs := sw.units) fun x hx => hn (ha _ (List.mem_cons_of_mem _ (List.mem_map_of_mem hx))), ← h1]
    exact seq_le hb.cov hb.bound (fun x hx => (hb.lits x hx).2) hu fun c hc => by
      rw [Option.mem_def] at hc; injection hc with hc; rw [← hc]; exact hn (ha _ (List.mem_cons_self ..))

/-- and nothing else -/
theorem PbInc.complete {s0 s : Sol} {sw : Swc} {act : List (Nat × Nat)} {lb : Nat} {as : List Nat} (h : PbInc s0 s sw act lb as) {u : Nat → Bool} (hu : s0.Holds u) (hl : wsum u act ≤ lb) :
    ∃ u' : Nat → Bool, (∀ x < s0.n, u' x = u x) ∧ s.Holds u' ∧ ∀ a ∈ as, litVal u' a = true := by
  have hbig : ∀ x ∈ act, lb < x.2 → litVal u x.1 = false := fun x hx hw => by
    cases e : litVal u x.1 with
    | false => rfl
    | true => have := wsum_ge hx e; omega
  cases e : sw.has with
  | false =>
    obtain ⟨h1, h2, h3, h4⟩ := h.off e
    refine ⟨u, fun _ _ => rfl, by rw [h1]; exact hu, fun a ha => ?_⟩
    rw [h3] at ha
    obtain ⟨x, hx, rfl⟩ := List.mem_map.1 ha
    have hx := mem_big.1 hx
    rw [litVal_neg, hbig x (h2.mem_iff.1 hx.1) hx.2]; rfl
  | true =>
    obtain ⟨h1, h2, hU, b, hb, h3⟩ := h.on e
    obtain ⟨u', g1, g2, -, g4⟩ := hb.complete u hu false fun _ => by
      rw [← wsum_perm h2, wsum_append] at hl; omega
    refine ⟨u', g1, g2, fun a ha => ?_⟩
    rw [h3] at ha
    rcases List.mem_cons.1 ha with rfl | ha
    · rw [litVal_neg, g4]; rfl
    · obtain ⟨x, hx, rfl⟩ := List.mem_map.1 ha
      have hm := h2.mem_iff.1 (List.mem_append_right _ hx)
      rw [litVal_neg, litVal_congr (w := u) (g1 _ (h.lits x hm).1), hbig x hm (hU x hx)]; rfl

/-- alg_wmsu3.go:196-201: the first encoding or an update -/
def Swc.next (sw : Swc) (s : Sol) (xs : List (Nat × Nat)) (rhs : Nat) : Swc × Sol × List Nat :=
  if sw.has = false then sw.encodeInc s xs rhs else sw.incUpdate s xs rhs

theorem PbInc.next {s0 s : Sol} (hw : s0.WF) {sw : Swc} {act xs : List (Nat × Nat)} {lb lb' : Nat} {as : List Nat} (h : PbInc s0 s sw act lb as) (hl : lb < lb')
    (hx : ∀ x ∈ xs, x.1 / 2 < s0.n ∧ 0 < x.2) : PbInc s0 (sw.next s xs lb').2.1 (sw.next s xs lb').1 (act ++ xs) lb' (sw.next s xs lb').2.2 := by
  have hall : ∀ x ∈ act ++ xs, x.1 / 2 < s0.n ∧ 0 < x.2 := fun x hm => by
    rcases List.mem_append.1 hm with hm | hm
    · exact h.lits x hm
    · exact hx x hm
  unfold Swc.next
  cases e : sw.has with
  | false =>
    rw [if_pos rfl]
    obtain ⟨h1, h2, -, -⟩ := h.off e
    have hp : (sw.units ++ xs).Perm (act ++ xs) := h2.append_right xs
    subst h1
    unfold Swc.encodeInc
    dsimp only
    obtain ⟨all, hA⟩ : ∃ all, sw.units ++ xs = all := ⟨_, rfl⟩
    rw [hA] at hp ⊢
    have bb : big (big all lb') lb' = big all lb' := List.filter_eq_self.2 fun x hx => by have := (mem_big.1 hx).2; simp; omega
    have sb : small (big all lb') lb' = [] := List.filter_eq_nil_iff.2 fun x hx => by have := (mem_big.1 hx).2; simp; omega
    have bs : big (small all lb') lb' = [] := List.filter_eq_nil_iff.2 fun x hx => by have := (mem_small.1 hx).2; simp; omega
    have ss : small (small all lb') lb' = small all lb' := List.filter_eq_self.2 fun x hx => by have := (mem_small.1 hx).2; simp; omega
    have ba : ∀ a b : List (Nat × Nat), big (a ++ b) lb' = big a lb' ++ big b lb' := fun a b => List.filter_append ..
    have sa : ∀ a b : List (Nat × Nat), small (a ++ b) lb' = small a lb' ++ small b lb' := fun a b => List.filter_append ..
    by_cases hs1 : (small all lb').length = 1
    · rw [if_pos hs1]
      refine ⟨hall, fun _ => ⟨rfl, (List.perm_append_comm.trans (small_big_perm all lb')).trans hp, ?_, ?_⟩, fun e => (nomatch e)⟩
      · dsimp only
        rw [ba, bb, bs, List.append_nil]
      · dsimp only
        rw [sa, sb, ss, List.nil_append, hs1]
        exact Nat.le_refl 1
    · rw [if_neg hs1]
      by_cases hs0 : (small all lb').length = 0
      · rw [if_pos hs0]
        have hz := List.length_eq_zero_iff.1 hs0
        refine ⟨hall, fun _ => ⟨rfl, ?_, ?_, ?_⟩, fun e => (nomatch e)⟩
        · have := small_big_perm all lb'
          rw [hz, List.nil_append] at this
          exact this.trans hp
        · dsimp only; rw [bb]
        · dsimp only; rw [sb]; exact Nat.zero_le 1
      · rw [if_neg hs0]
        exact ⟨hall, fun e => (nomatch e), fun _ => ⟨rfl, (small_big_perm all lb').trans hp, fun x hx => (mem_big.1 hx).2, _,
          encodeInc_inc hw (by omega) (fun x hx => by
            have := mem_small.1 hx
            have h3 := hall x (hp.mem_iff.1 this.1)
            exact ⟨h3.1, h3.2, this.2⟩) _, rfl⟩⟩
  | true =>
    rw [if_neg (by simp)]
    obtain ⟨h1, h2, hU, b, hb, -⟩ := h.on e
    unfold Swc.incUpdate
    dsimp only
    obtain ⟨b', i1, l1, u1, t1, r1⟩ := updateInc_inc (rhs := lb') hb (by omega)
    obtain ⟨u, hu⟩ : ∃ u, sw.updateInc s lb' = u := ⟨_, rfl⟩
    rw [hu] at i1 l1 u1 t1 r1 ⊢
    have hx' : ∀ x ∈ u.1.units ++ xs, x.1 / 2 < s0.n ∧ 0 < x.2 := fun x hm => by
      rw [u1] at hm
      rcases List.mem_append.1 hm with hm | hm
      · exact hall x (List.mem_append_left _ (h2.mem_iff.1 (List.mem_append_right _ hm)))
      · exact hx x hm
    obtain ⟨i2, l2, u2, t2, r2⟩ := join_inc i1 hx'
    obtain ⟨j, hj⟩ : ∃ j, u.1.join u.2 xs = j := ⟨_, rfl⟩
    rw [hj] at i2 l2 u2 t2 r2 ⊢
    refine ⟨hall, fun e' => (by rw [t2, t1, e] at e'; cases e'), fun _ => ⟨by rw [r2, r1], ?_, ?_, b', i2, by rw [i2.blk]; rfl⟩⟩
    · rw [l2, u2, l1, u1, r1, List.append_assoc]
      refine ((small_big_perm _ _).append_left sw.lits).trans ?_
      rw [← List.append_assoc]
      exact h2.append_right xs
    · intro x hx
      rw [u2, r1] at hx
      exact (mem_big.1 hx).2

end Verif.MaxAlg
