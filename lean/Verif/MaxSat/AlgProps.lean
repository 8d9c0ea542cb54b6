import Verif.MaxSat.Msu3
import Verif.MaxSat.LinearSUW
import Mathlib.Data.List.Dedup

/-! # C30: MaxSAT algorithms return the optimum -/

namespace Verif.MaxAlg

open Verif.MaxSat (litVal clauseVal costC)

/-- right answers exist: there is an oracle that answers every call without cancelling -/
theorem exists_ok : ∃ O : Orc, O.Ok ∧ ∀ k s as, O k s as ≠ .cancel := by
  classical
  refine ⟨fun _ s as => if h : ∃ u : Nat → Bool, s.Holds u ∧ ∀ a ∈ as, litVal u a = true then .sat h.choose else .unsat (as.map neg).dedup, fun k s as => ?_, fun k s as => ?_⟩
  · by_cases h : ∃ u : Nat → Bool, s.Holds u ∧ ∀ a ∈ as, litVal u a = true
    · simp only [dif_pos h]
      exact h.choose_spec
    · simp only [dif_neg h]
      refine ⟨fun l hl => ?_, List.nodup_dedup _, fun u hu => ?_⟩
      · obtain ⟨a, ha, rfl⟩ := List.mem_map.1 (List.mem_dedup.1 hl)
        rw [neg_neg]; exact ha
      · refine Classical.byContradiction fun hn => h ⟨u, hu, fun a ha => ?_⟩
        refine Classical.byContradiction fun hf => hn ⟨neg a, List.mem_dedup.2 (List.mem_map.2 ⟨a, ha, rfl⟩), ?_⟩
        rw [litVal_neg]
        simpa using hf
  · dsimp only
    split <;> simp

/-- C30 for LinearUS: for unweighted problems, with either incremental strategy and for every behaviour of the SAT solver and the handler, the search ends; it reports the least cost
with a model of that cost, or that the hard clauses are unsatisfiable, or it was cancelled -/
theorem C30_linearUS {P : Prob} (hw : P.WF) (h1 : P.Unit) {O : Orc} (hO : O.Ok) (H : Nat → Bool) (inc : Bool) {f : Nat} (hf : P.soft.length + 2 ≤ f) :
    ∃ r, linearUS inc P O H f = some r ∧ Right P O H r := linearUS_right hw h1 hO H inc hf

/-- C30 for MSU3, likewise -/
theorem C30_msu3 {P : Prob} (hw : P.WF) (h1 : P.Unit) {O : Orc} (hO : O.Ok) (H : Nat → Bool) (inc : Bool) {f : Nat} (hf : P.soft.length + 2 ≤ f) :
    ∃ r, msu3 inc P O H f = some r ∧ Right P O H r := msu3_right hw h1 hO H inc hf

/-- `x ∨ y ∨ z` with the soft clauses `¬x`, `¬y`, `¬z` -/
def exP (a b c : Nat) : Prob := ⟨3, [[0, 2, 4]], [([1], a), ([3], b), ([5], c)]⟩

theorem exP_wf (a b c : Nat) : (exP a b c).WF := ⟨by simp [exP], by simp [exP]⟩

theorem exP_cost (a b c : Nat) (u : Nat → Bool) : costC u (exP a b c).soft = (if u 0 then a else 0) + ((if u 1 then b else 0) + (if u 2 then c else 0)) := by
  simp [exP, costC, clauseVal, litVal]
  cases u 0 <;> cases u 1 <;> cases u 2 <;> simp

theorem exP_holds (a b c : Nat) (u : Nat → Bool) : (exP a b c).Holds u ↔ u 0 = true ∨ u 1 = true ∨ u 2 = true := by
  simp [exP, Prob.Holds, clauseVal, litVal]

/-- the results of the example: the least cost is 1 -/
theorem exP_result {O : Orc} (hc : ∀ k s as, O k s as ≠ .cancel) {r : Res} (h : Right (exP 1 1 1) O (fun _ => true) r) : ∃ u, r = .opt 1 u := by
  have h0 : (exP 1 1 1).Holds fun _ => true := (exP_holds _ _ _ _).2 (.inl rfl)
  cases r with
  | cancel => rcases h with ⟨k, s, as, h⟩ | ⟨k, h⟩; exact absurd h (hc k s as); cases h
  | unsat => exact absurd h0 (h _)
  | opt c u =>
    obtain ⟨h1, h2, h3⟩ := h
    have h3 := h3 (fun x => decide (x = 0)) ((exP_holds _ _ _ _).2 (.inl rfl))
    rw [exP_holds] at h1
    rw [exP_cost] at h2 h3
    simp at h3
    refine ⟨u, ?_⟩
    have : c = 1 := by
      rcases h1 with h1 | h1 | h1 <;> rw [h1] at h2 <;> revert h2 <;> cases u 0 <;> cases u 1 <;> cases u 2 <;> simp <;> omega
    rw [this]

example : ∃ O : Orc, O.Ok ∧ ∀ inc, (∃ u, linearUS inc (exP 1 1 1) O (fun _ => true) 5 = some (.opt 1 u)) ∧ ∃ u, msu3 inc (exP 1 1 1) O (fun _ => true) 5 = some (.opt 1 u) := by
  obtain ⟨O, hO, hc⟩ := exists_ok
  have h1 : (exP 1 1 1).Unit := by simp [Prob.Unit, exP]
  refine ⟨O, hO, fun inc => ⟨?_, ?_⟩⟩
  · obtain ⟨r, h, hr⟩ := C30_linearUS (exP_wf 1 1 1) h1 hO (fun _ => true) inc (f := 5) (Nat.le_refl _)
    obtain ⟨u, rfl⟩ := exP_result hc hr
    exact ⟨u, h⟩
  · obtain ⟨r, h, hr⟩ := C30_msu3 (exP_wf 1 1 1) h1 hO (fun _ => true) inc (f := 5) (Nat.le_refl _)
    obtain ⟨u, rfl⟩ := exP_result hc hr
    exact ⟨u, h⟩

/-! ## LinearSU -/

/-- C30 for LinearSU (partial): the search ends and its results are safe: a reported cost is the cost of the reported model, which satisfies the hard clauses, and unsatisfiability is only
reported for unsatisfiable hard clauses.  The reported cost is the least for unweighted problems, for lexicographic weights in that mode, and if no bound lets exactly one soft clause
through.  Missing: the other weights, for which it is false (`C30_linearSU_false`). -/
theorem C30_linearSU_partial {P : Prob} (hw : P.WF) (hp : P.Pos) (hne : P.NonEmpty) {O : Orc} (hO : O.Ok) (H : Nat → Bool) (bmoMode : Bool) {f : Nat} (hf : P.suFuel ≤ f) :
    ∃ r, linearSU bmoMode P O H f = some r ∧ Safe P O H r ∧ (P.Unit ∨ (bmoMode = true ∧ isBmo (P.soft.map (·.2)) = true) ∨ P.NoSingle → Right P O H r) :=
  linearSU_right hw hp hne hO H bmoMode hf

/-- the results of the examples below: the least weight is the least cost -/
theorem exP_min {a b c : Nat} {O : Orc} (hc : ∀ k s as, O k s as ≠ .cancel) {r : Res} (h : Right (exP a b c) O (fun _ => true) r) : ∃ u, r = .opt (min a (min b c)) u := by
  have h0 : (exP a b c).Holds fun _ => true := (exP_holds _ _ _ _).2 (.inl rfl)
  cases r with
  | cancel => rcases h with ⟨k, s, as, h⟩ | ⟨k, h⟩; exact absurd h (hc k s as); cases h
  | unsat => exact absurd h0 (h _)
  | opt d u =>
    obtain ⟨h1, h2, h3⟩ := h
    have hx := h3 (fun x => decide (x = 0)) ((exP_holds _ _ _ _).2 (.inl rfl))
    have hy := h3 (fun x => decide (x = 1)) ((exP_holds _ _ _ _).2 (.inr (.inl rfl)))
    have hz := h3 (fun x => decide (x = 2)) ((exP_holds _ _ _ _).2 (.inr (.inr rfl)))
    rw [exP_holds] at h1
    rw [exP_cost] at h2 hx hy hz
    simp at hx hy hz
    refine ⟨u, ?_⟩
    have : d = min a (min b c) := by
      rcases h1 with h1 | h1 | h1 <;> rw [h1] at h2 <;> revert h2 <;> cases u 0 <;> cases u 1 <;> cases u 2 <;> simp <;> omega
    rw [this]

theorem exP_pos {a b c : Nat} (ha : 1 ≤ a) (hb : 1 ≤ b) (hc : 1 ≤ c) : (exP a b c).Pos := by simp [Prob.Pos, exP]; omega

theorem exP_nonEmpty (a b c : Nat) : (exP a b c).NonEmpty := by simp [Prob.NonEmpty, exP]

/-- unweighted, lexicographic weights, and weights whose least occurs twice -/
example : ∃ O : Orc, O.Ok ∧ (∃ u, linearSU true (exP 1 1 1) O (fun _ => true) 50 = some (.opt 1 u)) ∧ (∃ u, linearSU true (exP 4 2 1) O (fun _ => true) 50 = some (.opt 1 u)) ∧
    ∃ u, linearSU true (exP 3 2 2) O (fun _ => true) 50 = some (.opt 2 u) := by
  obtain ⟨O, hO, hc⟩ := exists_ok
  refine ⟨O, hO, ?_, ?_, ?_⟩
  · obtain ⟨r, h, _, hr⟩ := C30_linearSU_partial (exP_wf 1 1 1) (exP_pos (by omega) (by omega) (by omega)) (exP_nonEmpty _ _ _) hO (fun _ => true) true (f := 50) (by decide)
    obtain ⟨u, rfl⟩ := exP_min hc (hr (.inl (by simp [Prob.Unit, exP])))
    exact ⟨u, h⟩
  · obtain ⟨r, h, _, hr⟩ := C30_linearSU_partial (exP_wf 4 2 1) (exP_pos (by omega) (by omega) (by omega)) (exP_nonEmpty _ _ _) hO (fun _ => true) true (f := 50) (by decide)
    obtain ⟨u, rfl⟩ := exP_min hc (hr (.inr (.inl ⟨rfl, by decide⟩)))
    exact ⟨u, h⟩
  · obtain ⟨r, h, _, hr⟩ := C30_linearSU_partial (exP_wf 3 2 2) (exP_pos (by omega) (by omega) (by omega)) (exP_nonEmpty _ _ _) hO (fun _ => true) true (f := 50) (by decide)
    obtain ⟨u, rfl⟩ := exP_min hc (hr (.inr (.inr fun b => by simp only [exP, List.filter_cons]; split <;> split <;> simp_all <;> omega)))
    exact ⟨u, h⟩

/-- right answers of which one is chosen -/
theorem exists_ok_with (m : Nat → Bool) : ∃ O : Orc, O.Ok ∧ (∀ k s as, O k s as ≠ .cancel) ∧ ∀ k s, s.Holds m → O k s [] = .sat m := by
  classical
  obtain ⟨O, hO, hc⟩ := exists_ok
  refine ⟨fun k s as => if s.Holds m ∧ ∀ a ∈ as, litVal m a = true then .sat m else O k s as, fun k s as => ?_, fun k s as => ?_, fun k s h => ?_⟩
  · by_cases h : s.Holds m ∧ ∀ a ∈ as, litVal m a = true
    · simp only [if_pos h]; exact h
    · simp only [if_neg h]; exact hO k s as
  · dsimp only
    split
    · simp
    · exact hc k s as
  · dsimp only
    rw [if_pos ⟨h, fun a ha => nomatch ha⟩]

/-- an unsatisfiable call is answered as such -/
theorem unsat_answer {O : Orc} (hO : O.Ok) (hc : ∀ k s as, O k s as ≠ .cancel) {k : Nat} {s : Sol} {as : List Nat} (h : ∀ u : Nat → Bool, ¬ (s.Holds u ∧ ∀ a ∈ as, litVal u a = true)) :
    ∃ core, O k s as = .unsat core := by
  have := hO k s as
  cases ho : O k s as with
  | cancel => exact absurd ho (hc k s as)
  | sat u => rw [ho] at this; exact absurd this (h u)
  | unsat core => exact ⟨core, rfl⟩

/-- the statement of C30 is false for LinearSU: `x ∨ y ∨ z` with the soft clauses `¬x` (5), `¬y` (4), `¬z` (3).  The first model makes `y` true.  Then the cost must be at most 3; only the last
soft clause may be violated, and `encode` excludes that as well (enc_swc.go:62-65).  The search reports 4 although the least cost is 3. -/
theorem C30_linearSU_false : ∃ (P : Prob) (O : Orc), P.WF ∧ P.Pos ∧ P.NonEmpty ∧ O.Ok ∧ ∀ bmoMode f, ∃ r, linearSU bmoMode P O (fun _ => true) (f + 2) = some r ∧ ¬ Right P O (fun _ => true) r := by
  obtain ⟨O, hO, hc, hm⟩ := exists_ok_with fun x => decide (x = 1 ∨ x = 4)
  refine ⟨exP 5 4 3, O, exP_wf _ _ _, exP_pos (by omega) (by omega) (by omega), exP_nonEmpty _ _ _, hO, fun bmoMode f => ?_⟩
  have hb : (bmoMode && isBmo ((exP 5 4 3).soft.map (·.2))) = false := by cases bmoMode <;> decide
  have hcur : curWeight ((exP 5 4 3).soft.map (·.2)) ≠ 1 := by decide
  unfold linearSU
  rw [if_neg hcur, if_neg (by rw [hb]; simp)]
  unfold suWeighted
  rw [hm 0 _ (by simp [Sol.Holds, Prob.relaxed, exP, clauseVal, litVal])]
  have hcost : costC (fun x => decide (x = 1 ∨ x = 4)) (exP 5 4 3).soft = 4 := by rw [exP_cost]; simp
  dsimp only
  rw [hcost, if_neg (by omega), if_pos rfl, if_neg (by simp)]
  have he : Swc.encode {} ((exP 5 4 3).relaxed 1) (exP 5 4 3).objW (4 - 1) = ({}, (((exP 5 4 3).relaxed 1).addAll [[7], [9]]).addAll [[11]], [(10, 3)]) := by
    simp [Swc.encode, small, big, exP, Prob.objW, neg]
  rw [he]
  unfold suWeighted
  obtain ⟨core, hu⟩ := unsat_answer hO hc (k := 1) (s := (((exP 5 4 3).relaxed 1).addAll [[7], [9]]).addAll [[11]]) (as := []) fun u hu => by
    have h := hu.1
    simp [Sol.Holds, Sol.addAll, Prob.relaxed, exP, clauseVal, litVal] at h
    revert h
    cases u 0 <;> cases u 1 <;> cases u 2 <;> cases u 3 <;> cases u 4 <;> cases u 5 <;> simp
  rw [hu]
  refine ⟨_, rfl, fun h => ?_⟩
  have := h.2.2 (fun x => decide (x = 2)) ((exP_holds _ _ _ _).2 (.inr (.inr rfl)))
  rw [exP_cost] at this
  simp at this

end Verif.MaxAlg
