import Verif.MaxSat.Totalizer

/-! # Relaxed soft clauses -/

namespace Verif.MaxAlg

open Verif.MaxSat (litVal clauseVal costC)

/-! ## model -/

/-- `initRelaxation` (alg_linear_us.go:155, alg_linear_su.go:210, alg_msu3.go:206, alg_wmsu3.go, alg_oll.go): the relaxation literals with the weights of their soft clauses -/
def Prob.objW (P : Prob) : List (Nat × Nat) := P.soft.zipIdx.map fun ci => (2 * (P.n + ci.2), ci.1.2)

/-- the objective function -/
def Prob.obj (P : Prob) : List Nat := P.objW.map (·.1)

/-- `rebuildSolver` (alg_linear_us.go:138, alg_linear_su.go:172, alg_msu3.go:187): hard clauses and the soft clauses of at least the given weight with their relaxation literals -/
def Prob.relaxed (P : Prob) (w : Nat) : Sol :=
  ⟨P.n + P.soft.length, P.hard ++ (P.soft.zipIdx.filter fun ci => decide (w ≤ ci.1.2)).map fun ci => ci.1.1 ++ [2 * (P.n + ci.2)]⟩

/-! ## lemmas -/

/-- weight of the true literals -/
def wsum (u : Nat → Bool) : List (Nat × Nat) → Nat
  | [] => 0
  | (l, w) :: xs => (if litVal u l then w else 0) + wsum u xs

theorem wsum_congr {u w : Nat → Bool} : ∀ {xs : List (Nat × Nat)}, (∀ x ∈ xs, u (x.1 / 2) = w (x.1 / 2)) → wsum u xs = wsum w xs
  | [], _ => rfl
  | (l, k) :: xs, h => by rw [wsum, wsum, litVal_congr (h (l, k) List.mem_cons_self), wsum_congr fun x hx => h x (List.mem_cons_of_mem _ hx)]

theorem wsum_append (u : Nat → Bool) : ∀ a b : List (Nat × Nat), wsum u (a ++ b) = wsum u a + wsum u b
  | [], b => (Nat.zero_add _).symm
  | (l, w) :: a, b => by rw [List.cons_append, wsum, wsum, wsum_append u a b, Nat.add_assoc]

theorem wsum_perm {u : Nat → Bool} {a b : List (Nat × Nat)} (h : a.Perm b) : wsum u a = wsum u b := by
  induction h with
  | nil => rfl
  | cons x _ ih => obtain ⟨l, w⟩ := x; rw [wsum, wsum, ih]
  | swap x y l => obtain ⟨a, b⟩ := x; obtain ⟨c, d⟩ := y; simp only [wsum]; omega
  | trans _ _ ih1 ih2 => rw [ih1, ih2]

theorem wsum_const (u : Nat → Bool) {k : Nat} : ∀ {xs : List (Nat × Nat)}, (∀ x ∈ xs, x.2 = k) → wsum u xs = k * cnt u (xs.map (·.1))
  | [], _ => by simp [wsum, cnt]
  | (l, w) :: xs, h => by
    have hw : w = k := h (l, w) List.mem_cons_self
    subst hw
    rw [wsum, wsum_const u fun x hx => h x (List.mem_cons_of_mem _ hx)]
    unfold cnt
    rw [List.map_cons, List.countP_cons]
    split <;> simp [Nat.mul_add, Nat.add_comm]

theorem wsum_unit (u : Nat → Bool) {xs : List (Nat × Nat)} (h : ∀ x ∈ xs, x.2 = 1) : wsum u xs = cnt u (xs.map (·.1)) := by
  rw [wsum_const u h, Nat.one_mul]

theorem costC_le_wsum (u : Nat → Bool) (n : Nat) : ∀ (S : List (List Nat × Nat)) (k : Nat),
    (∀ ci ∈ S.zipIdx k, clauseVal u ci.1.1 = false → litVal u (2 * (n + ci.2)) = true) → costC u S ≤ wsum u ((S.zipIdx k).map fun ci => (2 * (n + ci.2), ci.1.2))
  | [], _, _ => Nat.le_refl _
  | (c, w) :: S, k, h => by
    rw [List.zipIdx_cons, List.map_cons, costC, wsum]
    have ih := costC_le_wsum u n S (k + 1) fun ci hci => h ci (by rw [List.zipIdx_cons]; exact List.mem_cons_of_mem _ hci)
    have h0 := h ((c, w), k) (by rw [List.zipIdx_cons]; exact List.mem_cons_self)
    by_cases hc : clauseVal u c = true
    · rw [if_pos hc]; omega
    · have hv : litVal u (2 * (n + k)) = true := h0 (by simpa using hc)
      rw [if_neg hc, if_pos hv]; dsimp only; omega

theorem costC_eq_wsum (u : Nat → Bool) (n : Nat) : ∀ (S : List (List Nat × Nat)) (k : Nat),
    (∀ ci ∈ S.zipIdx k, litVal u (2 * (n + ci.2)) = !clauseVal u ci.1.1) → costC u S = wsum u ((S.zipIdx k).map fun ci => (2 * (n + ci.2), ci.1.2))
  | [], _, _ => rfl
  | (c, w) :: S, k, h => by
    rw [List.zipIdx_cons, List.map_cons, costC, wsum]
    have ih := costC_eq_wsum u n S (k + 1) fun ci hci => h ci (by rw [List.zipIdx_cons]; exact List.mem_cons_of_mem _ hci)
    have h0 : litVal u (2 * (n + k)) = !clauseVal u c := h ((c, w), k) (by rw [List.zipIdx_cons]; exact List.mem_cons_self)
    rw [ih, h0]
    cases clauseVal u c <;> simp

theorem mem_zipIdx_lt {S : List (List Nat × Nat)} {ci : (List Nat × Nat) × Nat} (h : ci ∈ S.zipIdx) : ci.2 < S.length ∧ S[ci.2]? = some ci.1 := by
  obtain ⟨c, i⟩ := ci
  have := List.mem_zipIdx_iff_getElem?.1 h
  exact ⟨(List.getElem?_eq_some_iff.1 this).1, this⟩

theorem Prob.objW_lt {P : Prob} {x : Nat × Nat} (h : x ∈ P.objW) : P.n ≤ x.1 / 2 ∧ x.1 / 2 < P.n + P.soft.length := by
  obtain ⟨ci, hci, rfl⟩ := List.mem_map.1 h
  have := (mem_zipIdx_lt hci).1
  show P.n ≤ 2 * (P.n + ci.2) / 2 ∧ 2 * (P.n + ci.2) / 2 < P.n + P.soft.length
  omega

theorem Prob.obj_below (P : Prob) (w : Nat) : Below (P.relaxed w).n P.obj := by
  intro l hl
  obtain ⟨x, hx, rfl⟩ := List.mem_map.1 hl
  exact (Prob.objW_lt hx).2

theorem Prob.obj_length (P : Prob) : P.obj.length = P.soft.length := by simp [Prob.obj, Prob.objW]

theorem Prob.relaxed_wf {P : Prob} (h : P.WF) (w : Nat) : (P.relaxed w).WF := by
  intro c hc l hl
  show l / 2 < P.n + P.soft.length
  rcases List.mem_append.1 hc with hc | hc
  · have := h.hard c hc l hl; omega
  · obtain ⟨ci, hci, rfl⟩ := List.mem_map.1 hc
    obtain ⟨h1, h2⟩ := mem_zipIdx_lt (List.mem_of_mem_filter hci)
    rcases List.mem_append.1 hl with hl | hl
    · have := h.soft ci.1 (List.mem_of_getElem? h2) l hl; omega
    · rw [List.mem_singleton.1 hl]; omega

/-- a model of the relaxed clauses satisfies the hard clauses, and the relaxation literals of violated soft clauses are true -/
theorem Prob.relaxed_sound {P : Prob} {w : Nat} {u : Nat → Bool} (h : (P.relaxed w).Holds u) :
    P.Holds u ∧ ∀ ci ∈ P.soft.zipIdx, w ≤ ci.1.2 → clauseVal u ci.1.1 = false → litVal u (2 * (P.n + ci.2)) = true := by
  refine ⟨fun c hc => h c (List.mem_append_left _ hc), fun ci hci hw hv => ?_⟩
  have := h (ci.1.1 ++ [2 * (P.n + ci.2)]) (List.mem_append_right _ (List.mem_map.2 ⟨ci, List.mem_filter.2 ⟨hci, decide_eq_true hw⟩, rfl⟩))
  obtain ⟨l, hl, ht⟩ := clauseVal_iff.1 this
  rcases List.mem_append.1 hl with hl | hl
  · have : clauseVal u ci.1.1 = true := clauseVal_iff.2 ⟨l, hl, ht⟩
    rw [hv] at this; cases this
  · rw [List.mem_singleton.1 hl] at ht; exact ht

theorem Prob.cost_le {P : Prob} {w : Nat} (hw : ∀ c ∈ P.soft, w ≤ c.2) {u : Nat → Bool} (h : (P.relaxed w).Holds u) : costC u P.soft ≤ wsum u P.objW := by
  refine costC_le_wsum u P.n P.soft 0 fun ci hci hv => (Prob.relaxed_sound h).2 ci hci (hw _ ?_) hv
  exact List.mem_of_getElem? (mem_zipIdx_lt hci).2

/-- the relaxation literals have the value of an exact violation -/
def Prob.Tight (P : Prob) (u : Nat → Bool) : Prop := ∀ ci ∈ P.soft.zipIdx, litVal u (2 * (P.n + ci.2)) = !clauseVal u ci.1.1

theorem Prob.Tight.cost {P : Prob} {u : Nat → Bool} (h : P.Tight u) : costC u P.soft = wsum u P.objW := costC_eq_wsum u P.n P.soft 0 h

theorem Prob.Tight.congr {P : Prob} (hw : P.WF) {u v : Nat → Bool} (e : ∀ x < P.n + P.soft.length, v x = u x) (h : P.Tight u) : P.Tight v := by
  intro ci hci
  obtain ⟨h1, h2⟩ := mem_zipIdx_lt hci
  rw [litVal_congr (w := u) (e _ (by omega)), h ci hci, clauseVal_congr (u := v) fun l hl => e _ (Nat.lt_of_lt_of_le (hw.soft _ (List.mem_of_getElem? h2) l hl) (Nat.le_add_right _ _))]

/-- relaxation literals of exact violation -/
def Prob.tighten (P : Prob) (u : Nat → Bool) : Nat → Bool := fun x =>
  if x < P.n then u x else match P.soft[x - P.n]? with
    | some c => !clauseVal u c.1
    | none => u x

theorem Prob.tighten_old {P : Prob} {u : Nat → Bool} {x : Nat} (h : x < P.n) : P.tighten u x = u x := by unfold Prob.tighten; rw [if_pos h]

theorem Prob.tighten_tight {P : Prob} (hw : P.WF) (u : Nat → Bool) : P.Tight (P.tighten u) := by
  intro ci hci
  obtain ⟨h1, h2⟩ := mem_zipIdx_lt hci
  rw [litVal_two, clauseVal_congr (u := P.tighten u) (w := u) fun l hl => Prob.tighten_old (hw.soft _ (List.mem_of_getElem? h2) l hl)]
  unfold Prob.tighten
  rw [if_neg (by omega), Nat.add_sub_cancel_left, h2]

theorem Prob.Tight.relaxed {P : Prob} {u : Nat → Bool} (h : P.Tight u) (hu : P.Holds u) (w : Nat) : (P.relaxed w).Holds u := by
  intro c hc
  rcases List.mem_append.1 hc with hc | hc
  · exact hu c hc
  · obtain ⟨ci, hci, rfl⟩ := List.mem_map.1 hc
    have hci := List.mem_of_mem_filter hci
    rw [clauseVal_iff]
    by_cases hv : clauseVal u ci.1.1 = true
    · obtain ⟨l, hl, ht⟩ := clauseVal_iff.1 hv
      exact ⟨l, List.mem_append_left _ hl, ht⟩
    · exact ⟨_, List.mem_append_right _ (List.mem_singleton.2 rfl), by rw [h ci hci]; simpa using hv⟩

/-- every assignment that satisfies the hard clauses extends to one with exact relaxation literals -/
theorem Prob.exists_tight {P : Prob} (hw : P.WF) {u : Nat → Bool} (hu : P.Holds u) :
    ∃ v : Nat → Bool, (∀ x < P.n, v x = u x) ∧ P.Holds v ∧ P.Tight v ∧ costC v P.soft = costC u P.soft :=
  ⟨P.tighten u, fun _ hx => Prob.tighten_old hx, (Prob.holds_congr hw fun _ hx => Prob.tighten_old hx).2 hu, Prob.tighten_tight hw u, Prob.cost_congr hw fun _ hx => Prob.tighten_old hx⟩

end Verif.MaxAlg
