import Verif.MaxSat.HistoryInv
import Verif.MaxSat.IncWboSearch
import Mathlib.Data.List.Induction

/-! # C45: MaxSAT on any call history -/

namespace Verif.MaxAlg

open Verif
open Verif.MaxSat (litVal clauseVal costC St Op step run hards softs OpOk Bd SPos run_bd run_ext run_loaded)
variable {α : Type} [DecidableEq α]

/-! ## from clauses to formulas -/

theorem RightC.formula {m : Alg α} {hs : List (Fm α)} {ss : List (Fm α × Nat)} (hl : MaxSat.Loaded m.st hs ss) {may : Prop} {r : Res} (h : RightC m.prob may r) : RightF hs ss m.idx may r := by
  classical
  have hh : ∀ u v, MaxSat.Agree m.idx u v → (m.prob.Holds u ↔ ∀ f ∈ hs, f.eval v = true) := fun u v ha => by
    have h1 : m.hard.map (clauseVal u) = hs.map (Fm.eval v) := hl.hard u v ha
    have h2 : m.prob.Holds u ↔ ∀ b ∈ m.hard.map (clauseVal u), b = true := by simp [Prob.Holds, Alg.prob]
    have h3 : (∀ f ∈ hs, f.eval v = true) ↔ ∀ b ∈ hs.map (Fm.eval v), b = true := by simp
    rw [h2, h3, h1]
  have hc : ∀ u v, MaxSat.Agree m.idx u v → costC u m.prob.soft = MaxSat.cost v ss := fun u v ha => MaxSat.costC_eq u v _ _ (hl.soft u v ha)
  have hu : ∀ v : α → Bool, ∃ u, MaxSat.Agree m.idx u v := fun v => by
    refine ⟨fun i => decide (∃ x, m.idx.lookup x = some i ∧ v x = true), fun x i hx => ?_⟩
    cases hv : v x with
    | true => exact (decide_eq_true ⟨x, hx, hv⟩).symm
    | false =>
      refine (decide_eq_false ?_).symm
      rintro ⟨y, hy, hvy⟩
      rw [hl.wf.inj x y i hx hy, hvy] at hv
      cases hv
  cases r with
  | cancel => exact h
  | unsat =>
    intro v
    obtain ⟨u, ha⟩ := hu v
    refine Classical.byContradiction fun hn => h u ((hh u v ha).2 fun f hf => ?_)
    cases hv : f.eval v with
    | true => rfl
    | false => exact absurd ⟨f, hf, hv⟩ hn
  | opt c u =>
    obtain ⟨h1, h2, h3⟩ := h
    refine ⟨fun v ha => ⟨(hh u v ha).1 h1, by rw [← hc u v ha, h2]⟩, fun v hv => ?_⟩
    obtain ⟨u', ha⟩ := hu v
    rw [← hc u' v ha]
    exact h3 u' ((hh u' v ha).2 hv)

/-! ## C45 -/

variable {ord : List (Lit α) → List (Lit α)} {dom : List Nat → Prop}

/-- The problem on the solver.  For every history of adding formulas, saving and loading states, and Solve calls that may be cancelled (except at the finish event): indices of variables, clauses, weights, the sum of
the weights and the greatest weight are those of a new solver to which only the formulas that are still there were added; saved states can be loaded exactly if no earlier state was loaded since; searches leave no traces. -/
theorem C45_state_partial (ho : ∀ l, (ord l).Perm l) {A : Srch α} (hA : A.Ok dom) {l : List (HOp α)} (hok : ∀ o ∈ l, o.Ok) (hfin : ∀ c, HOp.solve c ∈ l → c.finish = true) {s : Slvr α} (hs : history ord A l = some s) :
    s.alg.st = run ord (spec l).cur ∧ (s.alg.lbCost = 0 ∧ s.alg.nbSat = 0 ∧ s.alg.orderW = [] ∧ ∀ c ∈ s.alg.soft, c.rel = [] ∧ c.asm = none) ∧ s.states.length = (spec l).n ∧
    ∀ k x, s.states[k]? = some x → ((s.alg.load x).isSome = true ↔ ∃ ops, (k, ops) ∈ (spec l).saved) := by
  have h := history_inv hA ho hok hfin hs
  refine ⟨h.st, ⟨h.noTrace.lb, h.noTrace.cnt.2.2.2, h.noTrace.order, h.noTrace.rel⟩, h.n, fun k x hx => ?_⟩
  rw [← h.mem k x hx]
  constructor
  · intro hq
    refine Classical.byContradiction fun hn => ?_
    rw [load_none hn] at hq
    cases hq
  · intro hm
    obtain ⟨ops, hops⟩ := (h.mem k x hx).1 hm
    have := (h.loadOk ho hops hx)
    obtain ⟨j, h1, _⟩ := take_last h.inc hm
    unfold Alg.load
    rw [h1]
    rfl

/-- **C45**: after every history of adding formulas, saving and loading states, and Solve calls (which may be cancelled, except at the finish event), Solve returns the right result for the formulas that are on the solver:
unsatisfiable, or the least weight of falsified soft formulas with a model.  Missing: if the last change was followed by a cancelled call, Solve returns the empty result (`C45_cancelled_false`); after a call cancelled at the
finish event the result can be wrong (`C45_finish_false`); WMSU3 panics (`C45_wmsu3_false`). -/
theorem C45_history_partial (ho : ∀ l, (ord l).Perm l) {A : Srch α} (hA : A.Ok dom) {l : List (HOp α)} (hok : ∀ o ∈ l, o.Ok) (hfin : ∀ c, HOp.solve c ∈ l → c.finish = true) {s : Slvr α} (hs : history ord A l = some s)
    (hst : (spec l).stale = false) (hd : dom ((softs (spec l).cur).map (·.2))) :
    ∃ s' r, s.solve A .plain = some (s', r) ∧ s'.alg.st = s.alg.st ∧ RightF (hards (spec l).cur) (softs (spec l).cur) s.alg.idx False r := by
  have h := history_inv hA ho hok hfin hs
  have hl := run_loaded ho (spec l).cur fun o ho => (h.ops o ho).1
  rw [← h.st] at hl
  obtain ⟨g1, g2, g3⟩ := h.clean ho
  have hw : s.alg.soft.map (·.w) = (softs (spec l).cur).map (·.2) := by
    have h1 := congrArg (List.map (·.2)) (hl.soft (fun _ => false) (fun _ => false) fun x i hx => rfl)
    rw [List.map_map, List.map_map] at h1
    simpa [Alg.st, List.map_map, Function.comp_def] using h1
  have hd' : dom (s.alg.soft.map (·.w)) := by rw [hw]; exact hd
  have hd2 : dom (s.alg.save.2.soft.map (·.w)) := by rw [save_eq]; exact hd'
  obtain ⟨g4, m', r', g5, g6⟩ := hA.right s.calls .plain s.alg.save.2 g1 g2 g3 hd2
  have g4' : A.sup (decide (s.alg.curW ≠ 1)) = true := by rw [save_eq] at g4; exact g4
  cases hq : s.solve A .plain with
  | none =>
    exfalso
    unfold Slvr.solve at hq
    split at hq
    · cases hq
    · rw [g4', hA.pre] at hq
      simp only [Bool.true_eq_false, if_false] at hq
      unfold MaxAlg.inner Call.plain at hq
      simp only [Bool.true_eq_false, if_false] at hq
      unfold Call.plain at g5
      rw [g5] at hq
      cases hq
  | some sr =>
    obtain ⟨s', r⟩ := sr
    have h' := h.solve hA ho (c := .plain) rfl hq
    have hcur : (Spec.step (spec l) (.solve .plain)).cur = (spec l).cur := rfl
    have hst' : s'.alg.st = s.alg.st := by rw [h'.st, h.st, hcur]
    refine ⟨s', r, rfl, hst', ?_⟩
    have hr : s'.ok = true ∧ s'.res = r := by
      unfold Slvr.solve at hq
      split at hq
      · rename_i h1; cases hq; exact ⟨h1, rfl⟩
      · split at hq
        · cases hq
        · cases hi : MaxAlg.inner A s.calls .plain (A.pre s.alg) with
          | none => rw [hi] at hq; cases hq
          | some mr => rw [hi] at hq; cases hq; exact ⟨rfl, rfl⟩
    have h2 := h'.res hr.1 (by simp [Spec.step, hst, Call.plain]) (by rw [Alg.w_eq hst']; exact hd')
    rw [hr.2, Alg.prob_eq hst'] at h2
    exact h2.formula hl

/-- If the search is right for all positive weights then every such history runs without panic. -/
theorem history_total (ho : ∀ l, (ord l).Perm l) {A : Srch α} (hA : A.Ok fun _ => True) : ∀ {l : List (HOp α)}, (∀ o ∈ l, o.Ok) → (∀ c, HOp.solve c ∈ l → c.finish = true) → ∃ s, history ord A l = some s := by
  intro l
  induction l using List.reverseRecOn with
  | nil => exact fun _ _ => ⟨{}, rfl⟩
  | append_singleton l o ih =>
    intro hok hfin
    have hok' : ∀ o ∈ l, o.Ok := fun o h => hok o (List.mem_append_left _ h)
    have hfin' : ∀ c, HOp.solve c ∈ l → c.finish = true := fun c h => hfin c (List.mem_append_left _ h)
    obtain ⟨s, hs⟩ := ih hok' hfin'
    have h := history_inv hA ho hok' hfin' hs
    have hstep : ∃ s', s.step ord A o = some s' := by
      cases o with
      | add ops => exact ⟨_, rfl⟩
      | save => exact ⟨_, rfl⟩
      | load k =>
        unfold Slvr.step
        dsimp only
        cases s.states[k]? with
        | none => exact ⟨_, rfl⟩
        | some x => exact ⟨_, rfl⟩
      | solve c =>
        obtain ⟨g1, g2, g3⟩ := h.clean ho
        obtain ⟨g4, m', r', g5, g6⟩ := hA.right s.calls c s.alg.save.2 g1 g2 g3 trivial
        have g4' : A.sup (decide (s.alg.curW ≠ 1)) = true := by rw [save_eq] at g4; exact g4
        unfold Slvr.step Slvr.solve
        dsimp only
        split
        · exact ⟨_, rfl⟩
        · rw [g4', hA.pre]
          simp only [Bool.true_eq_false, if_false]
          unfold MaxAlg.inner
          split
          · exact ⟨_, rfl⟩
          · dsimp only
            rw [g5]
            exact ⟨_, rfl⟩
    obtain ⟨s', hs'⟩ := hstep
    refine ⟨s', ?_⟩
    unfold history at hs ⊢
    rw [List.foldlM_append, hs]
    simp [hs']

/-! ## the algorithms -/

/-- the searches of C30, given by their results; `tr` is what they leave behind -/
def Srch.of (sup : Bool → Bool) (solve : Nat → Call → Prob → Option Res) (tr : Nat → Call → Alg α → Alg α) : Srch α :=
  ⟨sup, id, fun k c m => (solve k c m.prob).map fun r => (tr k c m, r)⟩

theorem Srch.of_ok {sup : Bool → Bool} {solve : Nat → Call → Prob → Option Res} {tr : Nat → Call → Alg α → Alg α} (htr : ∀ k c m, Frame m (tr k c m)) {dom : List Nat → Prop}
    (hsup : ∀ ws, dom ws → ∀ w, (w = 1 ∨ w ∈ ws) → sup (decide (w ≠ 1)) = true)
    (h : ∀ k c P, Prob.WF P → P.Pos → P.NonEmpty → dom (P.soft.map (·.2)) → ∃ r, solve k c P = some r ∧ RightC P (c.nop = false) r) : (Srch.of sup solve tr).Ok dom := by
  refine ⟨fun _ => rfl, fun k c m m' r hr => ?_, fun k c m hm hw hp hd => ⟨?_, ?_⟩⟩
  · unfold Srch.of at hr
    dsimp only at hr
    cases hq : solve k c m.prob with
    | none => rw [hq] at hr; cases hr
    | some r' => rw [hq] at hr; cases hr; exact htr k c m
  · refine hsup _ hd _ (hm.cur.2.imp id ?_)
    rintro ⟨x, hx, e⟩
    exact List.mem_map.2 ⟨x, hx, e.symm⟩
  · obtain ⟨r, h1, h2⟩ := h k c m.prob hw
      (fun x hx => by obtain ⟨y, hy, rfl⟩ := List.mem_map.1 hx; exact (hp y hy).1)
      (fun x hx => by obtain ⟨y, hy, rfl⟩ := List.mem_map.1 hx; exact (hp y hy).2)
      (by simpa [Alg.prob, List.map_map, Function.comp_def] using hd)
    refine ⟨tr k c m, r, ?_, h2⟩
    unfold Srch.of
    dsimp only
    rw [h1]
    rfl

/-- the answers of the SAT solver and the handler in the calls: a `NopHandler` does not cancel -/
structure Answers (O : Nat → Call → Orc) (H : Nat → Call → Nat → Bool) : Prop where
  ok : ∀ k c, (O k c).Ok
  nop : ∀ k c, c.nop = true → ¬ Cancels (O k c) (H k c)

theorem Answers.right {O : Nat → Call → Orc} {H : Nat → Call → Nat → Bool} (h : Answers O H) {k : Nat} {c : Call} {P : Prob} {r : Res} (hr : Right P (O k c) (H k c) r) : RightC P (c.nop = false) r := by
  cases r with
  | cancel =>
    cases hn : c.nop with
    | false => exact rfl
    | true => exact absurd hr (h.nop k c hn)
  | unsat => exact hr
  | opt c u => exact hr

variable {O : Nat → Call → Orc} {H : Nat → Call → Nat → Bool} {tr : Nat → Call → Alg α → Alg α}

theorem oll_ok (h : Answers O H) (htr : ∀ k c m, Frame m (tr k c m)) : (Srch.of (fun _ => true) (fun k c P => oll P (O k c) P.ollFuel) tr).Ok fun _ => True :=
  Srch.of_ok htr (fun _ _ _ _ => rfl) fun k c P hw hp _ _ => by
    obtain ⟨r, h1, h2⟩ := C30_oll hw hp (h.ok k c) (Nat.le_refl _)
    refine ⟨r, h1, ?_⟩
    cases r with
    | cancel =>
      cases hn : c.nop with
      | false => exact rfl
      | true =>
        refine absurd ?_ (h.nop k c hn)
        rcases h2 with h2 | ⟨_, h2⟩
        · exact Or.inl h2
        · cases h2
    | unsat => exact h2
    | opt c u => exact h2

theorem wbo_ok (h : Answers O H) (htr : ∀ k c m, Frame m (tr k c m)) {cfg : WCfg} (hc : cfg.sym = false) : (Srch.of (fun _ => true) (fun k c P => wbo cfg P (O k c) (H k c) P.ollFuel) tr).Ok fun _ => True :=
  Srch.of_ok htr (fun _ _ _ _ => rfl) fun k c P hw hp _ _ => by
    obtain ⟨r, h1, h2⟩ := C30_wbo_partial hw hp (.inl hc) (h.ok k c) (H k c) (Nat.le_refl _)
    exact ⟨r, h1, h.right h2⟩

theorem incWbo_ok (h : Answers O H) (htr : ∀ k c m, Frame m (tr k c m)) {cfg : WCfg} (hc : cfg.sym = false) : (Srch.of (fun _ => true) (fun k c P => incWbo cfg P (O k c) (H k c) P.ollFuel) tr).Ok fun _ => True :=
  Srch.of_ok htr (fun _ _ _ _ => rfl) fun k c P hw hp hn _ => by
    obtain ⟨r, h1, h2⟩ := C30_incwbo_partial hw hp hn (.inl hc) (h.ok k c) (H k c) (Nat.le_refl _)
    exact ⟨r, h1, h.right h2⟩

/-- all weights are 1 -/
def Ones (ws : List Nat) : Prop := ∀ w ∈ ws, w = 1

theorem Ones.unit {P : Prob} (h : Ones (P.soft.map (·.2))) : P.Unit := fun c hc => h _ (List.mem_map.2 ⟨c, hc, rfl⟩)

theorem Ones.sup {ws : List Nat} (h : Ones ws) {w : Nat} (hw : w = 1 ∨ w ∈ ws) : (!decide (w ≠ 1)) = true := by
  have : w = 1 := hw.elim id (h w)
  simp [this]

theorem wboUnit_ok (h : Answers O H) (htr : ∀ k c m, Frame m (tr k c m)) (cfg : WCfg) : (Srch.of (fun _ => true) (fun k c P => wbo cfg P (O k c) (H k c) P.ollFuel) tr).Ok Ones :=
  Srch.of_ok htr (fun _ _ _ _ => rfl) fun k c P hw hp _ hd => by
    obtain ⟨r, h1, h2⟩ := C30_wbo_partial hw hp (.inr hd.unit) (h.ok k c) (H k c) (Nat.le_refl _)
    exact ⟨r, h1, h.right h2⟩

theorem incWboUnit_ok (h : Answers O H) (htr : ∀ k c m, Frame m (tr k c m)) (cfg : WCfg) : (Srch.of (fun _ => true) (fun k c P => incWbo cfg P (O k c) (H k c) P.ollFuel) tr).Ok Ones :=
  Srch.of_ok htr (fun _ _ _ _ => rfl) fun k c P hw hp hn hd => by
    obtain ⟨r, h1, h2⟩ := C30_incwbo_partial hw hp hn (.inr hd.unit) (h.ok k c) (H k c) (Nat.le_refl _)
    exact ⟨r, h1, h.right h2⟩

theorem linearUS_ok (h : Answers O H) (htr : ∀ k c m, Frame m (tr k c m)) (inc : Bool) : (Srch.of (!·) (fun k c P => linearUS inc P (O k c) (H k c) (P.soft.length + 2)) tr).Ok Ones :=
  Srch.of_ok htr (fun _ hd _ hw => Ones.sup hd hw) fun k c P hw _ _ hd => by
    obtain ⟨r, h1, h2⟩ := C30_linearUS hw hd.unit (h.ok k c) (H k c) inc (Nat.le_refl _)
    exact ⟨r, h1, h.right h2⟩

theorem msu3_ok (h : Answers O H) (htr : ∀ k c m, Frame m (tr k c m)) (inc : Bool) : (Srch.of (!·) (fun k c P => msu3 inc P (O k c) (H k c) (P.soft.length + 2)) tr).Ok Ones :=
  Srch.of_ok htr (fun _ hd _ hw => Ones.sup hd hw) fun k c P hw _ _ hd => by
    obtain ⟨r, h1, h2⟩ := C30_msu3 hw hd.unit (h.ok k c) (H k c) inc (Nat.le_refl _)
    exact ⟨r, h1, h.right h2⟩

/-- the weights for which LinearSU is right (C30) -/
def SuDom (bmoMode : Bool) (ws : List Nat) : Prop := Ones ws ∨ (bmoMode = true ∧ isBmo ws = true) ∨ ∀ b, (ws.filter fun w => decide (w ≤ b)).length ≠ 1

theorem linearSU_ok (h : Answers O H) (htr : ∀ k c m, Frame m (tr k c m)) (bmoMode : Bool) : (Srch.of (fun _ => true) (fun k c P => linearSU bmoMode P (O k c) (H k c) P.suFuel) tr).Ok (SuDom bmoMode) :=
  Srch.of_ok htr (fun _ _ _ _ => rfl) fun k c P hw hp hn hd => by
    obtain ⟨r, h1, _, h2⟩ := C30_linearSU_partial hw hp hn (h.ok k c) (H k c) bmoMode (Nat.le_refl _)
    refine ⟨r, h1, h.right (h2 ?_)⟩
    rcases hd with hd | hd | hd
    · exact .inl hd.unit
    · exact .inr (.inl hd)
    · refine .inr (.inr fun b => ?_)
      have := hd b
      rw [List.filter_map, List.length_map] at this
      exact this

/-- OLL, and WBO and IncWBO without symmetry clauses, on any history whose calls are not cancelled at the finish event and, after the last change, not at all -/
theorem C45_oll_partial (ho : ∀ l, (ord l).Perm l) (h : Answers O H) (htr : ∀ k c m, Frame m (tr k c m)) {A : Srch α}
    (hA : A = Srch.of (fun _ => true) (fun k c P => oll P (O k c) P.ollFuel) tr ∨
      ∃ cfg : WCfg, cfg.sym = false ∧ (A = Srch.of (fun _ => true) (fun k c P => wbo cfg P (O k c) (H k c) P.ollFuel) tr ∨ A = Srch.of (fun _ => true) (fun k c P => incWbo cfg P (O k c) (H k c) P.ollFuel) tr))
    {l : List (HOp α)} (hok : ∀ o ∈ l, o.Ok) (hfin : ∀ c, HOp.solve c ∈ l → c.finish = true) (hst : (spec l).stale = false) :
    ∃ s s' r, history ord A l = some s ∧ s.solve A .plain = some (s', r) ∧ RightF (hards (spec l).cur) (softs (spec l).cur) s.alg.idx False r := by
  have hok' : A.Ok fun _ => True := by
    rcases hA with rfl | ⟨cfg, hc, rfl | rfl⟩
    · exact oll_ok h htr
    · exact wbo_ok h htr hc
    · exact incWbo_ok h htr hc
  obtain ⟨s, hs⟩ := history_total ho hok' hok hfin
  obtain ⟨s', r, h1, _, h2⟩ := C45_history_partial ho hok' hok hfin hs hst trivial
  exact ⟨s, s', r, hs, h1, h2⟩

/-- `x ∨ y`; state 0; `¬x` (2), `¬y` (3); a call cancelled at its start; state 1; `y`; Solve; state 2; state 0 is not loaded, state 1 is; now state 2 cannot be loaded -/
def exH : List (HOp Nat) :=
  [.add [.hard (.or [.lit ⟨0, true⟩, .lit ⟨1, true⟩])], .save, .add [.soft (.lit ⟨0, false⟩) 2, .soft (.lit ⟨1, false⟩) 3], .solve { start := false, nop := false }, .save,
   .add [.hard (.lit ⟨1, true⟩)], .solve .plain, .save, .load 1, .load 2]

/-- the least weight is that of `¬x` again, not that of `¬y` -/
example : ∃ (O : Nat → Call → Orc) (s s' : Slvr Nat) (u : Nat → Bool), Answers O (fun _ _ _ => true) ∧ history id (Srch.of (fun _ => true) (fun k c P => oll P (O k c) P.ollFuel) fun _ _ m => { m with nbSat := 1 }) exH = some s ∧
    s.solve (Srch.of (fun _ => true) (fun k c P => oll P (O k c) P.ollFuel) fun _ _ m => { m with nbSat := 1 }) .plain = some (s', .opt 2 u) := by
  obtain ⟨O, hO, hc⟩ := exists_ok
  have hA : Answers (fun _ _ => O) (fun _ _ _ => true) := ⟨fun _ _ => hO, fun k c _ h => by
    rcases h with ⟨k, s, as, h⟩ | ⟨_, h⟩
    · exact hc k s as h
    · cases h⟩
  obtain ⟨s, s', r, h1, h2, h3⟩ := C45_oll_partial (ord := id) (α := Nat) (tr := fun _ _ m => { m with nbSat := 1 }) (fun _ => List.Perm.refl _) hA
    (fun _ _ m => ⟨⟨[], by simp⟩, ⟨[], by simp⟩, Nat.le_refl _, rfl, rfl, rfl⟩) (.inl rfl) (l := exH)
    (by simp [exH, HOp.Ok, MaxSat.Op.Ok, MaxSat.Regular]) (by simp [exH, Call.plain]) (by decide)
  have hh : hards (spec exH).cur = [.or [.lit ⟨0, true⟩, .lit ⟨1, true⟩]] := by rfl
  have hs : softs (spec exH).cur = [(.lit ⟨0, false⟩, 2), (.lit ⟨1, false⟩, 3)] := by rfl
  rw [hh, hs] at h3
  have hev : ∀ v : Nat → Bool, (∀ f ∈ [(.or [.lit ⟨0, true⟩, .lit ⟨1, true⟩] : Fm Nat)], f.eval v = true) ↔ v 0 = true ∨ v 1 = true := fun v => by simp [Fm.eval, Fm.evalAny, Lit.eval]
  have hco : ∀ v : Nat → Bool, MaxSat.cost v [((.lit ⟨0, false⟩ : Fm Nat), 2), (.lit ⟨1, false⟩, 3)] = (if v 0 then 2 else 0) + if v 1 then 3 else 0 := fun v => by
    cases h0 : v 0 <;> cases h1 : v 1 <;> simp [MaxSat.cost, Fm.eval, Lit.eval, h0, h1]
  refine ⟨fun _ _ => O, s, s', ?_⟩
  cases r with
  | cancel => exact absurd h3 id
  | unsat =>
    obtain ⟨f, hf, he⟩ := h3 fun _ => true
    rw [((hev fun _ => true).2 (.inl rfl)) f hf] at he
    cases he
  | opt c u =>
    obtain ⟨a1, a2⟩ := h3
    have b := a2 (fun x => decide (x = 0)) ((hev _).2 (.inl rfl))
    rw [hco] at b
    simp at b
    obtain ⟨c1, c2⟩ := a1 (fun x => ((s.alg.idx.lookup x).map u).getD false) fun x i hx => by simp [hx]
    rw [hev] at c1
    rw [hco] at c2
    have : c = 2 := by
      rcases c1 with c1 | c1
      · rw [if_pos c1] at c2; omega
      · rw [if_pos c1] at c2; omega
    subst this
    exact ⟨u, hA, h1, h2⟩

end Verif.MaxAlg
