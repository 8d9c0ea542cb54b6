import Verif.MaxSat.AlgProps
import Verif.MaxSat.Wmsu3Bmo

/-! # C30: WMSU3 -/

namespace Verif.MaxAlg

open Verif.MaxSat (litVal clauseVal costC raise subsetSum)

/-- C30 for WMSU3 with the incremental strategy: for positive weights of which one is above 1, in both modes and for every behaviour of the SAT solver and the handler, the search ends; it reports
the least cost with a model of that cost, or that the hard clauses are unsatisfiable, or it was cancelled.  (For unweighted problems the algorithm panics, alg_wmsu3.go:36-38.) -/
theorem C30_wmsu3 {P : Prob} (hw : P.WF) (hp : P.Pos) (h1 : ¬ P.Unit) {O : Orc} (hO : O.Ok) (H : Nat → Bool) (bmoMode : Bool) {f : Nat} (hf : P.wmFuel ≤ f) :
    ∃ r, wmsu3 true bmoMode P O H f = some r ∧ Right P O H r := wmsu3_right hw hp h1 hO H bmoMode hf

/-- lexicographic weights in both modes, and other weights -/
example : ∃ O : Orc, O.Ok ∧ (∀ b, ∃ u, wmsu3 true b (exP 4 2 1) O (fun _ => true) 50 = some (.opt 1 u)) ∧ ∃ u, wmsu3 true true (exP 5 4 3) O (fun _ => true) 50 = some (.opt 3 u) := by
  obtain ⟨O, hO, hc⟩ := exists_ok
  refine ⟨O, hO, fun b => ?_, ?_⟩
  · obtain ⟨r, h, hr⟩ := C30_wmsu3 (exP_wf 4 2 1) (exP_pos (by omega) (by omega) (by omega)) (by simp [Prob.Unit, exP]) hO (fun _ => true) b (f := 50) (by decide)
    obtain ⟨u, rfl⟩ := exP_min hc hr
    exact ⟨u, h⟩
  · obtain ⟨r, h, hr⟩ := C30_wmsu3 (exP_wf 5 4 3) (exP_pos (by omega) (by omega) (by omega)) (by simp [Prob.Unit, exP]) hO (fun _ => true) true (f := 50) (by decide)
    obtain ⟨u, rfl⟩ := exP_min hc hr
    exact ⟨u, h⟩

/-- C30 for WMSU3 without incremental strategy (partial): a reported cost is the cost of the reported model, which satisfies the hard clauses, and unsatisfiability is only reported for
unsatisfiable hard clauses.  Missing: that the cost is the least (`C30_wmsu3_none_false`) and that the search ends (`C30_wmsu3_none_loops`); both are false. -/
theorem C30_wmsu3_none_partial {P : Prob} (hw : P.WF) (hp : P.Pos) {O : Orc} (hO : O.Ok) (H : Nat → Bool) (bmoMode : Bool) {f : Nat} {r : Res}
    (h : wmsu3 false bmoMode P O H f = some r) : Safe P O H r := by
  unfold wmsu3 at h
  split at h
  · cases h
  · dsimp only at h
    rw [if_pos (by simp)] at h
    exact wmsu3None_safe hw hp hO H _ f 0 _ _ _ 0 0 _ _ r (Ext.refl _) (fun _ => ⟨rfl, rfl⟩) (fun e => absurd rfl e) h

/-- not both of `a`, `b`, with the soft clauses `a` (2) and `b` (3) -/
def exN : Prob := ⟨2, [[1, 3]], [([0], 2), ([2], 3)]⟩

local instance (s : Sol) (u : Nat → Bool) : Decidable (s.Holds u) := by unfold Sol.Holds; infer_instance

local instance (P : Prob) (u : Nat → Bool) : Decidable (P.Holds u) := by unfold Prob.Holds; infer_instance

/-- the model of the wrong result -/
def exM : Nat → Bool := fun x => decide (x = 0 ∨ x = 3 ∨ x = 7 ∨ x = 8 ∨ x = 9)

theorem exN_cur {act : Nat → Bool} (h0 : act 0 = true) (h1 : act 1 = true) : exN.curW act = [(4, 2), (6, 3)] ∧ exN.restW 1 act = [] := by
  constructor
  · simp [Prob.curW, exN, List.range_succ, h0, h1, Prob.wt]
  · simp [Prob.restW, exN, List.range_succ, h0, h1]

theorem exN_raise (f : Nat) : raise [2, 3] (f + 2) 1 = some 2 ∧ raise [2, 3] (f + 2) 3 = some 3 := by
  constructor
  · rw [raise, if_neg (by decide), raise, if_pos (by decide)]
  · rw [raise, if_pos (by decide)]

/-- the last two rounds -/
theorem exN_end {O : Orc} (hO : O.Ok) (hc : ∀ k s as, O k s as ≠ .cancel) (hm : ∀ k s, s.Holds exM → O k s [] = .sat exM) {act : Nat → Bool} (h0 : act 0 = true) (h1 : act 1 = true) (f k : Nat) :
    wmsu3None exN O (fun _ => true) 1 (f + 3) k (Swc.encode {} (exN.relaxed 0) [(4, 2), (6, 3)] 2).2.1 [] act 1 2 3 exM = some (.opt 3 exM) := by
  have he : (Swc.encode {} (exN.relaxed 0) [(4, 2), (6, 3)] 2).2.1 = (exN.relaxed 0).addAll [[5], [7]] := by
    rfl
  rw [he]
  unfold wmsu3None
  obtain ⟨core, hu⟩ := unsat_answer hO hc (k := k) (s := (exN.relaxed 0).addAll [[5], [7]]) (as := []) fun u hu => by
    have h := hu.1
    simp [Sol.Holds, Sol.addAll, Prob.relaxed, exN, clauseVal, litVal] at h
    revert h
    cases u 0 <;> cases u 1 <;> cases u 2 <;> cases u 3 <;> simp
  rw [hu]
  dsimp only
  rw [if_neg (by omega), if_neg (by omega), if_neg (by simp)]
  obtain ⟨act', ha⟩ : ∃ act' : Nat → Bool, (fun i => act i || core.any fun l => decide ((exN.coreIdx l).getD 0 = i)) = act' := ⟨_, rfl⟩
  rw [ha]
  have h0' : act' 0 = true := by rw [← ha]; simp [h0]
  have h1' : act' 1 = true := by rw [← ha]; simp [h1]
  rw [(exN_cur h0' h1').1, (exN_cur h0' h1').2, show [((4 : Nat), (2 : Nat)), (6, 3)].map (·.2) = [2, 3] from rfl, (exN_raise f).2]
  show wmsu3None exN O (fun _ => true) 1 (f + 2) (k + 1) (Swc.encode {} (exN.relaxed 0) [(4, 2), (6, 3)] 3).2.1 [] act' 1 3 3 exM = some (.opt 3 exM)
  unfold wmsu3None
  rw [hm _ _ (by decide)]
  have hcost : costC exM exN.soft = 3 := by decide
  dsimp only
  rw [hcost]
  simp

/-- the statement of C30 is false for WMSU3 without incremental strategy: after the core with both soft clauses the bound is 2, and `encode` excludes both violations (enc_swc.go:62-65).
The bound becomes 3 and the search reports 3, although the least cost is 2. -/
theorem C30_wmsu3_none_false : ∃ (P : Prob) (O : Orc), P.WF ∧ P.Pos ∧ ¬ P.Unit ∧ O.Ok ∧ ∀ f, ∃ r, wmsu3 false false P O (fun _ => true) (f + 5) = some r ∧ ¬ Right P O (fun _ => true) r := by
  obtain ⟨O, hO, hc, hm⟩ := exists_ok_with exM
  refine ⟨exN, O, ⟨by simp [exN], by simp [exN]⟩, by simp [Prob.Pos, exN], by simp [Prob.Unit, exN], hO, fun f => ?_⟩
  have hcost : costC exM exN.soft = 3 := by decide
  unfold wmsu3
  rw [if_neg (by decide)]
  dsimp only
  rw [if_pos (by simp), if_neg (by simp)]
  unfold wmsu3None
  rw [hm 0 _ (by decide)]
  dsimp only
  rw [hcost]
  simp only [or_true, decide_true, if_true]
  rw [if_neg (by simp), if_neg (by simp)]
  show ∃ r, wmsu3None exN O (fun _ => true) 1 (f + 4) 1 (exN.relaxed 0) [5, 7] (fun _ => false) 1 0 3 exM = some r ∧ _
  unfold wmsu3None
  obtain ⟨core, hu⟩ := unsat_answer hO hc (k := 1) (s := exN.relaxed 0) (as := [5, 7]) fun u hu => by
    simp [Sol.Holds, Prob.relaxed, exN, clauseVal, litVal] at hu
    revert hu
    cases u 0 <;> cases u 1 <;> cases u 2 <;> cases u 3 <;> simp
  have hk := hO 1 (exN.relaxed 0) [5, 7]
  rw [hu] at hk ⊢
  dsimp only at hk ⊢
  rw [if_neg (by omega), if_neg (by omega), if_neg (by simp)]
  have hsub : ∀ l ∈ core, l = 4 ∨ l = 6 := fun l hl => by
    have := hk.1 l hl
    have h2 := neg_neg l
    rcases List.mem_cons.1 this with e | e
    · rw [e] at h2; exact .inl h2.symm
    · rw [List.mem_singleton.1 e] at h2; exact .inr h2.symm
  have h4 : 4 ∈ core := by
    obtain ⟨l, hl, h⟩ := hk.2.2 (fun x => decide (x = 1 ∨ x = 2)) (by decide)
    rcases hsub l hl with rfl | rfl
    · exact hl
    · exact absurd h (by decide)
  have h6 : 6 ∈ core := by
    obtain ⟨l, hl, h⟩ := hk.2.2 (fun x => decide (x = 0 ∨ x = 3)) (by decide)
    rcases hsub l hl with rfl | rfl
    · exact absurd h (by decide)
    · exact hl
  obtain ⟨act', ha⟩ : ∃ act' : Nat → Bool, (fun i => false || core.any fun l => decide ((exN.coreIdx l).getD 0 = i)) = act' := ⟨_, rfl⟩
  rw [ha]
  have h0' : act' 0 = true := by rw [← ha]; simp only [Bool.false_or, List.any_eq_true]; exact ⟨4, h4, by decide⟩
  have h1' : act' 1 = true := by rw [← ha]; simp only [Bool.false_or, List.any_eq_true]; exact ⟨6, h6, by decide⟩
  rw [(exN_cur h0' h1').1, (exN_cur h0' h1').2, show [((4 : Nat), (2 : Nat)), (6, 3)].map (·.2) = [2, 3] from rfl, (exN_raise (f + 1)).1]
  show ∃ r, wmsu3None exN O (fun _ => true) 1 (f + 3) (1 + 1) (Swc.encode {} (exN.relaxed 0) [(4, 2), (6, 3)] 2).2.1 [] act' 1 2 3 exM = some r ∧ _
  rw [exN_end hO hc hm h0' h1']
  refine ⟨_, rfl, fun h => ?_⟩
  exact absurd (h.2.2 (fun x => decide (x = 1)) (by decide)) (by decide)

/-- `y` holds; soft clauses `¬y` (1) and `x` (5) -/
def exL : Prob := ⟨2, [[2]], [([3], 1), ([0], 5)]⟩

/-- the search of WMSU3 without incremental strategy does not end in the mode for lexicographic weights: `currentWeight` stays 5 (alg_wmsu3.go:43-44), so only the second soft clause is ever
assumed; every round is satisfiable and no bound changes.  This holds for every SAT solver. -/
theorem C30_wmsu3_none_loops : ∃ P : Prob, P.WF ∧ P.Pos ∧ ¬ P.Unit ∧ ∀ O : Orc, O.Ok → (∀ k s as, O k s as ≠ .cancel) → ∀ f, wmsu3 false true P O (fun _ => true) f = none := by
  refine ⟨exL, ⟨by simp [exL], by simp [exL]⟩, by simp [Prob.Pos, exL], by simp [Prob.Unit, exL], fun O hO hc f => ?_⟩
  have key : ∀ (f k : Nat) (as : List Nat) (nb ub : Nat) (u : Nat → Bool), (∀ a ∈ as, a = 7) → (nb ≠ 0 → 1 ≤ ub) →
      wmsu3None exL O (fun _ => true) 5 f k (exL.relaxed 0) as (fun _ => false) nb 0 ub u = none := by
    intro f
    induction f with
    | zero => intros; rfl
    | succ f ih =>
      intro k as nb ub u ha hub
      unfold wmsu3None
      have ho := hO k (exL.relaxed 0) as
      cases hk : O k (exL.relaxed 0) as with
      | cancel => exact absurd hk (hc _ _ _)
      | unsat core =>
        rw [hk] at ho
        obtain ⟨l, hl, h⟩ := ho.2.2 (fun x => decide (x = 0 ∨ x = 1 ∨ x = 2)) (by decide)
        have := ha _ (ho.1 l hl)
        have : l = 6 := by unfold neg at this; split at this <;> omega
        subst this
        exact absurd h (by decide)
      | sat v =>
        rw [hk] at ho
        have hy : v 1 = true := by have := ho.1; simp [Sol.Holds, Prob.relaxed, exL, clauseVal, litVal] at this; exact this.1
        have hcost : 1 ≤ costC v exL.soft := by
          simp [costC, exL, clauseVal, litVal, hy]
        dsimp only
        have hbest : 1 ≤ (if decide (costC v exL.soft < ub ∨ nb = 0) = true then costC v exL.soft else ub) := by
          split
          · exact hcost
          · rename_i hd; exact hub fun e => hd (decide_eq_true (.inr e))
        rw [if_neg (by omega), if_neg (by simp)]
        refine ih _ _ _ _ _ (fun a h => ?_) fun _ => hbest
        rcases List.mem_append.1 h with h | h
        · exact ha a h
        · revert h
          rw [show exL.restW 5 (fun _ => false) = [7] by decide]
          simp
  unfold wmsu3
  rw [if_neg (by decide)]
  dsimp only
  rw [if_pos (by simp), if_pos (by decide)]
  exact key f 0 [] 0 _ _ (fun a h => nomatch h) fun e => absurd rfl e

end Verif.MaxAlg
