import Verif.MaxSat.HistoryProps
import Verif.MaxSat.WboSymFalse
import Verif.MaxSat.WmsuProps

/-! # C45: the histories for which the result is wrong -/

namespace Verif.MaxAlg

open Verif
open Verif.MaxSat (litVal clauseVal costC St Op step run hards softs OpOk)
variable {α : Type} [DecidableEq α]

/-! ## a cancelled call -/

/-- A formula is added and the next Solve call is cancelled at its start event.  The solver keeps the empty result of the cancelled call as the result for its formulas: Solve, which does not cancel, returns it again.  This is
so for every algorithm that supports unweighted problems. -/
theorem C45_cancelled_false {A : Srch Nat} (hs : A.sup false = true) : ∃ s : Slvr Nat, history id A [.add [.hard (.lit ⟨0, true⟩)], .solve { start := false, nop := false }] = some s ∧
    s.solve A .plain = some (s, .cancel) ∧ ¬ RightF (hards [.hard (.lit ⟨0, true⟩)]) (softs [.hard (.lit ⟨0, true⟩)]) s.alg.idx False .cancel := by
  have h0 : ({ alg := { nbVars := 1, idx := [(0, 0)], hard := [[0]] } } : Slvr Nat).solve A { start := false, nop := false } =
      some ({ alg := A.pre { nbVars := 1, idx := [(0, 0)], hard := [[0]] }, ok := true, res := .cancel, calls := 1 }, .cancel) := by
    unfold Slvr.solve MaxAlg.inner
    simp [hs]
  refine ⟨{ alg := A.pre { nbVars := 1, idx := [(0, 0)], hard := [[0]] }, ok := true, res := .cancel, calls := 1 }, ?_, ?_, id⟩
  · unfold history
    rw [List.foldlM_cons]
    have h1 : Slvr.step id A ({} : Slvr Nat) (.add [.hard (.lit ⟨0, true⟩)]) = some { alg := { nbVars := 1, idx := [(0, 0)], hard := [[0]] } } := by rfl
    rw [h1]
    simp only [Option.bind_eq_bind, Option.bind_some, List.foldlM_cons, List.foldlM_nil, Slvr.step]
    rw [h0]
    rfl
  · rfl

/-! ## WMSU3 -/

/-- alg_wmsu3.go:34 `search`: unweighted problems panic; the weights are collected and `currentWeight` is set before `innerSearch` saves the state -/
def Srch.wmsu3 (bmoMode : Bool) (search : Nat → Call → Alg α → Option (Alg α × Res)) : Srch α where
  sup := id
  pre m :=
    let m1 := if bmoMode then { m with orderW := m.orderW ++ orderWeights (m.soft.map (·.w)) } else m
    if bmoMode && isBmo (m.soft.map (·.w)) then m1 else { m1 with curW := 1 }
  search := search

/-- three soft formulas with the weights 3, 2, 2; Solve; a hard formula -/
def exW : List (HOp Nat) := [.add [.soft (.lit ⟨0, true⟩) 3, .soft (.lit ⟨1, true⟩) 2, .soft (.lit ⟨2, true⟩) 2], .solve .plain, .add [.hard (.lit ⟨0, true⟩)]]

/-- After a Solve call WMSU3 has lost the greatest weight: when a formula has been added the problem counts as unweighted and Solve panics.  This is so for every search within the frame. -/
theorem C45_wmsu3_false (bmoMode : Bool) {search : Nat → Call → Alg Nat → Option (Alg Nat × Res)} (hf : ∀ k c m m' r, search k c m = some (m', r) → Frame m m') {s : Slvr Nat}
    (h : history id (Srch.wmsu3 bmoMode search) exW = some s) : s.solve (Srch.wmsu3 bmoMode search) .plain = none := by
  have key : s.ok = false ∧ s.alg.curW = 1 := by
    unfold history exW at h
    rw [List.foldlM_cons] at h
    obtain ⟨m0, hm0⟩ : ∃ m, Slvr.step id (Srch.wmsu3 bmoMode search) ({} : Slvr Nat) (.add [.soft (.lit ⟨0, true⟩) 3, .soft (.lit ⟨1, true⟩) 2, .soft (.lit ⟨2, true⟩) 2]) = some { alg := m } ∧
        m.curW = 3 ∧ m.soft.map (·.w) = [3, 2, 2] ∧ m.valid = [] ∧ m.stateId = 0 := ⟨_, rfl, by decide, by decide, rfl, rfl⟩
    obtain ⟨h1, h2, h3, h4, h5⟩ := hm0
    rw [h1] at h
    simp only [Option.bind_eq_bind, Option.bind_some, List.foldlM_cons, List.foldlM_nil] at h
    cases hq : Slvr.step id (Srch.wmsu3 bmoMode search) ({ alg := m0 } : Slvr Nat) (.solve .plain) with
    | none => rw [hq] at h; cases h
    | some s1 =>
      rw [hq] at h
      simp only [Option.bind_some, Slvr.step, Option.pure_def, Option.some.injEq] at h
      have h6 : s1.alg.curW = 1 := by
        unfold Slvr.step Slvr.solve MaxAlg.inner at hq
        have hp : ((Srch.wmsu3 bmoMode search).pre m0).curW = 1 ∧ ((Srch.wmsu3 bmoMode search).pre m0).valid = [] ∧ ((Srch.wmsu3 bmoMode search).pre m0).stateId = 0 := by
          have hb : isBmo [3, 2, 2] = false := by decide
          unfold Srch.wmsu3
          dsimp only
          rw [h3, hb, Bool.and_false]
          cases bmoMode <;> simp [h4, h5]
        obtain ⟨p1, p2, p3⟩ := hp
        generalize (Srch.wmsu3 bmoMode search).pre m0 = m1 at hq p1 p2 p3
        have hsup : (Srch.wmsu3 bmoMode search).sup (decide (m0.curW ≠ 1)) = true := by rw [h2]; rfl
        dsimp only at hq
        rw [hsup] at hq
        simp only [Bool.false_eq_true, if_false, Call.plain, Bool.true_eq_false] at hq
        cases hr : (Srch.wmsu3 bmoMode search).search 0 {} m1.save.2 with
        | none => rw [hr] at hq; cases hq
        | some mr =>
          obtain ⟨m2, r⟩ := mr
          rw [hr] at hq
          have hfr := hf _ _ _ _ _ hr
          have hv : m2.valid = [0] := by rw [hfr.valid, save_eq]; simp [p2, p3]
          simp only [Option.map_some, Option.some.injEq] at hq
          subst hq
          rw [save_eq]
          unfold Alg.load SState.of
          rw [hv]
          simp [p3, Alg.st, p1]
      have h7 : ∀ m : Alg Nat, (m.add1 id (.hard (.lit ⟨0, true⟩))).curW = m.curW := fun m => by
        unfold Alg.add1 step MaxSat.addHard
        exact MaxSat.clauseVec_weight _ _ _
      subst h
      exact ⟨rfl, (h7 _).trans h6⟩
  unfold Slvr.solve
  rw [key.1, key.2]
  rfl

/-- the history is possible: with the search of C30 -/
example (bmoMode : Bool) : ∃ O : Orc, O.Ok ∧ ∃ s, history id (Srch.wmsu3 bmoMode fun _ _ m => (wmsu3 true bmoMode m.prob O (fun _ => true) m.prob.wmFuel).map fun r => (m, r)) exW = some s := by
  obtain ⟨O, hO, hc⟩ := exists_ok
  refine ⟨O, hO, ?_⟩
  obtain ⟨r, hr, _⟩ := C30_wmsu3 (P := ⟨3, [], [([0], 3), ([2], 2), ([4], 2)]⟩) ⟨by simp, by decide⟩ (by simp [Prob.Pos]) (by simp [Prob.Unit]) hO (fun _ => true) bmoMode (Nat.le_refl _)
  cases bmoMode <;> exact ⟨_, by
    simp only [history, exW, List.foldlM_cons, Option.bind_eq_bind]
    have h1 : ∀ A : Srch Nat, Slvr.step id A ({} : Slvr Nat) (.add [.soft (.lit ⟨0, true⟩) 3, .soft (.lit ⟨1, true⟩) 2, .soft (.lit ⟨2, true⟩) 2]) =
      some { alg := { nbVars := 3, idx := [(0, 0), (1, 1), (2, 2)], soft := [⟨[0], 3, [], none⟩, ⟨[2], 2, [], none⟩, ⟨[4], 2, [], none⟩], ubCost := 7, curW := 3 } } := fun _ => rfl
    rw [h1]
    simp only [Option.bind_some, Slvr.step, Slvr.solve, MaxAlg.inner, Srch.wmsu3, Call.plain, Alg.save, Alg.prob]
    have hb : isBmo [3, 2, 2] = false := by decide
    simp [hr, hb]
    rfl⟩

/-! ## a call cancelled at the finish event -/

/-- the problem with the relaxation variables that earlier searches left in the soft clauses -/
def Alg.relQ (m : Alg α) : Prob := ⟨m.nbVars, m.hard, m.soft.map fun c => (c.cl ++ c.rel, c.w)⟩

/-- alg_linear_us.go:54-86, the loop of `none`, with all that is read from and left in the fields of `maxSatAlgorithm`; `P` is the problem, `Q` the problem with the relaxation variables of earlier searches.  The result comes with
`nbSatisfiable`, `lbCost` and `ubCost`. -/
def usN (P Q : Prob) (O : Orc) (H : Nat → Bool) : Nat → Nat → Tot → Sol → Nat → Nat → Nat → (Nat → Bool) → Option (Res × Nat × Nat × Nat)
  | 0, _, _, _, _, _, _, _ => none
  | f + 1, k, t, s, nb, lb, ub, u => match O k s [] with
    | .cancel => some (.cancel, nb, lb, ub)
    | .sat u => if nb = 0 then
          if H k = false then some (.cancel, nb + 1, lb, costC u P.soft)
          else (t.encode s Q.obj 0).bind fun r => usN P Q O H f (k + 1) r.1 r.2 (nb + 1) lb (costC u P.soft) u
        else some (.opt (costC u P.soft) u, nb + 1, lb, costC u P.soft)
    | .unsat _ => if nb = 0 then some (.unsat, nb, lb + 1, ub)
        else if lb + 1 = ub then some (.opt ub u, nb, lb + 1, ub)
        else if H k = false then some (.cancel, nb, lb + 1, ub)
        else (t.encode (Q.relaxed 0) Q.obj (lb + 1)).bind fun r => usN P Q O H f (k + 1) r.1 r.2 nb (lb + 1) ub u

/-- alg_linear_us.go:31-86 `search`, `none` with `initRelaxation` (156) and what remains in the fields -/
def Srch.linearUS (O : Nat → Call → Orc) (H : Nat → Call → Nat → Bool) : Srch α where
  sup := (!·)
  pre := id
  search k c m := (usN m.prob m.relQ (O k c) (H k c) (m.soft.length + 2) 0 { inc := false } (m.relQ.relaxed 0) m.nbSat m.lbCost m.ubCost fun _ => false).map fun r =>
    ({ m with nbVars := m.nbVars + m.soft.length, soft := m.soft.zipIdx.map fun ci => { ci.1 with rel := ci.1.rel ++ [2 * (m.nbVars + ci.2)], asm := some (2 * (m.nbVars + ci.2)) },
              nbSat := r.2.1, lbCost := r.2.2.1, ubCost := r.2.2.2 }, r.1)

theorem usN_eq (P : Prob) (O : Orc) (H : Nat → Bool) : ∀ f k t s nb lb ub u, (usN P P O H f k t s nb lb ub u).map (·.1) = usNone P O H f k t s nb lb ub u := by
  intro f
  induction f with
  | zero => intros; rfl
  | succ f ih =>
    intro k t s nb lb ub u
    unfold usN usNone
    cases O k s [] with
    | cancel => rfl
    | sat v =>
      dsimp only
      by_cases hn : nb = 0
      · subst hn
        rw [if_pos rfl, if_pos rfl]
        by_cases hh : H k = false
        · rw [if_pos hh, if_pos hh]; rfl
        · rw [if_neg hh, if_neg hh]
          cases t.encode s P.obj 0 with
          | none => rfl
          | some r => exact ih _ _ _ _ _ _ _
      · rw [if_neg hn, if_neg hn]; rfl
    | unsat core =>
      dsimp only
      by_cases hn : nb = 0
      · rw [if_pos hn, if_pos hn]; rfl
      · rw [if_neg hn, if_neg hn]
        by_cases hl : lb + 1 = ub
        · rw [if_pos hl, if_pos hl]; rfl
        · rw [if_neg hl, if_neg hl]
          by_cases hh : H k = false
          · rw [if_pos hh, if_pos hh]; rfl
          · rw [if_neg hh, if_neg hh]
            cases t.encode (P.relaxed 0) P.obj (lb + 1) with
            | none => rfl
            | some r => exact ih _ _ _ _ _ _ _

/-- on a state without traces this is the search of C30 -/
theorem Srch.linearUS_ok {O : Nat → Call → Orc} {H : Nat → Call → Nat → Bool} (h : Answers O H) : (Srch.linearUS O H : Srch α).Ok Ones := by
  refine ⟨fun _ => rfl, fun k c m m' r hr => ?_, fun k c m hm hw hp hd => ⟨?_, ?_⟩⟩
  · unfold Srch.linearUS at hr
    dsimp only at hr
    rw [Option.map_eq_some_iff] at hr
    obtain ⟨x, _, hx⟩ := hr
    cases hx
    refine ⟨⟨[], by simp⟩, ⟨[], ?_⟩, Nat.le_add_right _ _, rfl, rfl, rfl⟩
    rw [List.append_nil, List.map_map]
    have : ∀ (l : List Sc) (j : Nat), (l.zipIdx j).map ((fun x : Sc => x.cl) ∘ fun ci : Sc × Nat => { ci.1 with rel := ci.1.rel ++ [2 * (m.nbVars + ci.2)], asm := some (2 * (m.nbVars + ci.2)) }) = l.map (·.cl) := by
      intro l
      induction l with
      | nil => intro j; rfl
      | cons y l ih => intro j; rw [List.zipIdx_cons, List.map_cons, List.map_cons, ih]; rfl
    exact this _ _
  · refine Ones.sup hd (hm.cur.2.imp id ?_)
    rintro ⟨x, hx, e⟩
    exact List.mem_map.2 ⟨x, hx, e.symm⟩
  · have hq : m.relQ = m.prob := by
      unfold Alg.relQ Alg.prob
      congr 1
      exact List.map_congr_left fun c hc => by rw [(hm.rel c hc).1, List.append_nil]
    have hu : m.prob.Unit := Ones.unit (by simpa [Alg.prob, List.map_map, Function.comp_def] using hd)
    obtain ⟨r, h1, h2⟩ := C30_linearUS hw hu (h.ok k c) (H k c) false (Nat.le_refl _)
    have hl : m.prob.soft.length = m.soft.length := by simp [Alg.prob]
    have hub : (m.prob.soft.map (·.2)).sum = m.ubCost := by rw [hm.ub]; simp [Alg.prob, List.map_map, Function.comp_def]
    unfold MaxAlg.linearUS at h1
    rw [if_neg (by simp), ← usN_eq, hl, hub, Option.map_eq_some_iff] at h1
    obtain ⟨x, h3, h4⟩ := h1
    unfold Srch.linearUS
    dsimp only
    rw [hq, hm.lb, hm.cnt.2.2.2, h3]
    exact ⟨_, _, rfl, by rw [h4]; exact h.right h2⟩

/-- one soft formula; a call that is cancelled at the finish event; a hard formula -/
def exF : List (HOp Nat) := [.add [.soft (.lit ⟨0, true⟩) 1], .solve { finish := false, nop := false }, .add [.hard (.lit ⟨1, true⟩)]]

/-- first call: the soft formula is satisfied; second call: it is not, its relaxation variables are true -/
noncomputable def exFO : Nat → Call → Orc := fun k _ => tabO (fun _ => if k = 0 then some (.mod [0]) else some (.mod [1, 2, 3])) okO

/-- LinearUS after a call that was cancelled at its finish event: `nbSatisfiable` is not reset and so the first model is taken for an optimum.  The answers of the SAT solver are right, no other call is cancelled, and there was
a change after the cancelled call; the reported optimum is 1, but the soft formula can be satisfied. -/
theorem C45_finish_false : (∀ k c, (exFO k c).Ok) ∧ (∀ o ∈ exF, o.Ok) ∧ (spec exF).stale = false ∧
    ∃ s s' u, history id (Srch.linearUS exFO fun _ _ _ => true) exF = some s ∧ s.solve (Srch.linearUS exFO fun _ _ _ => true) .plain = some (s', .opt 1 u) ∧
      ¬ RightF (hards (spec exF).cur) (softs (spec exF).cur) s.alg.idx False (.opt 1 u) := by
  refine ⟨fun k c => tabO_ok _ okO_ok, by simp [exF, HOp.Ok, MaxSat.Op.Ok, MaxSat.Regular], by decide, ?_⟩
  have h : optOf (((history id (Srch.linearUS exFO fun _ _ _ => true) exF).bind fun s => s.solve (Srch.linearUS exFO fun _ _ _ => true) .plain).map (·.2)) = some 1 := by decide +kernel
  cases hq : history id (Srch.linearUS exFO fun _ _ _ => true) exF with
  | none => rw [hq] at h; cases h
  | some s =>
    rw [hq, Option.bind_some] at h
    cases hr : s.solve (Srch.linearUS exFO fun _ _ _ => true) .plain with
    | none => rw [hr] at h; cases h
    | some sr =>
      obtain ⟨s', r⟩ := sr
      rw [hr] at h
      cases r with
      | cancel => cases h
      | unsat => cases h
      | opt c u =>
        have : c = 1 := Option.some.inj h
        subst this
        refine ⟨s, s', u, rfl, hr, fun hn => ?_⟩
        have hh : hards (spec exF).cur = [.lit ⟨1, true⟩] := by rfl
        have hs : softs (spec exF).cur = [(.lit ⟨0, true⟩, 1)] := by rfl
        have := hn.2 (fun _ => true) (by rw [hh]; simp [Lit.eval])
        rw [hs] at this
        simp [MaxSat.cost, Lit.eval] at this

end Verif.MaxAlg
