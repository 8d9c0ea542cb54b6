import Verif.Solver.Props
import Verif.NormalForm.ConstrEnc
/-! C50 for formulas with cardinality and pseudo-Boolean constraints inside, added by the Plaisted–Greenbaum methods: `addCNFToSolver` takes their NNF first
(sat/pg_on_solver.go:47-67), in which the constraints are replaced by their encodings with auxiliary variables. -/
namespace Verif.Solver
open Verif

variable {α : Type} [DecidableEq α]

/-! ## specification -/

/-- what a call returns, where the variables in `A` are auxiliary: the literals at level 0 follow from the formulas for all other variables -/
structure CallOkOn (A : α → Prop) (F : List (Fm α)) (lits : List (Lit α)) (res : CallRes α) : Prop where
  verdict : ∀ b, res.verdict = some b → VerdictOk F lits b
  model : res.verdict = some true → ∀ vars, ∃ m, res.modelFor vars = some m ∧ ModelOk F lits vars m
  zero : ∃ z, res.upZero = some z ∧ ∀ x p, (Slot.name (.usr x), p) ∈ z → ¬A x → ∀ v, (∀ f ∈ F, f.eval v = true) → v x = p

/-- a formula that is added, besides those of `Addable`: its constraints belong to `P`; no auxiliary variables -/
def AddableC (E : Env α) (P : Fm α → Prop) (A : α → Prop) (f : Fm α) : Prop :=
  (Addable E f ∨ amPart E f = none ∧ encTop E f = false ∧ E.nnf ≠ none ∧ NF.Within P f) ∧ ∀ x ∈ f.vars, ¬A x

/-- the admissible operations, with constraints inside formulas -/
def FOp.OkC (E : Env α) (P : Fm α → Prop) (A : α → Prop) : FOp α → Prop
  | .add f => AddableC E P A f
  | .call r lits props => r.Calm E.atMost ∧ (∀ f ∈ props, AddableC E P A f) ∧ ∀ l ∈ lits, ¬A l.var
  | _ => True

/-! ## the NNF -/

/-- the formula whose addition has the same effect -/
def inner (E : Env α) (f : Fm α) : Fm α :=
  if amPart E f = none ∧ encTop E f = false ∧ E.nnf ≠ none ∧ f.pbFree = false then NF.nnf E.cons E.encF f true else f

def innerOp (E : Env α) : FOp α → FOp α
  | .add f => .add (inner E f)
  | .call r lits props => .call r lits (props.map (inner E))
  | .save => .save
  | .load k => .load k

variable {E : Env α} {P : Fm α → Prop} {A : α → Prop}

theorem AddableC.cases {f : Fm α} (h : AddableC E P A f) : (inner E f = f ∧ Addable E f) ∨
    (inner E f = NF.nnf E.cons E.encF f true ∧ f.pbFree = false ∧ amPart E f = none ∧ encTop E f = false ∧ E.nnf ≠ none ∧ NF.Within P f) := by
  unfold inner
  by_cases hc : amPart E f = none ∧ encTop E f = false ∧ E.nnf ≠ none ∧ f.pbFree = false
  · rw [if_pos hc]
    obtain ⟨h1, h2, h3, h4⟩ := hc
    rcases h.1 with ha | ⟨_, _, _, hw⟩
    · unfold Addable at ha
      rw [h1] at ha
      simp only [h2, Bool.false_eq_true, if_false, if_neg h3] at ha
      rw [h4] at ha; cases ha
    · exact .inr ⟨rfl, h4, h1, h2, h3, hw⟩
  · rw [if_neg hc]
    rcases h.1 with ha | ⟨h1, h2, h3, hw⟩
    · exact .inl ⟨rfl, ha⟩
    · refine .inl ⟨rfl, ?_⟩
      have h4 : f.pbFree = true := by
        cases e : f.pbFree with
        | true => rfl
        | false => exact absurd ⟨h1, h2, h3, e⟩ hc
      unfold Addable
      rw [h1]
      simp only [h2, Bool.false_eq_true, if_false, if_neg h3]
      exact h4

theorem plain_of_pbFree {f : Fm α} (h : f.pbFree = true) : amPart E f = none ∧ encTop E f = false := by
  cases f with
  | cc c k xs => simp [Fm.pbFree] at h
  | pbc c k ts => simp [Fm.pbFree] at h
  | _ => simp [amPart, atMostOf, encTop]

theorem inner_addable (hE : NF.EncGood E.cons P E.encF) {f : Fm α} (h : AddableC E P A f) : Addable E (inner E f) := by
  rcases h.cases with ⟨e, ha⟩ | ⟨e, _, _, _, h3, hw⟩
  · rw [e]; exact ha
  · rw [e]
    have hp := (NF.nnf_cndE hE hw true).pbFree
    obtain ⟨p1, p2⟩ := plain_of_pbFree (E := E) hp
    unfold Addable
    rw [p1]
    simp only [p2, Bool.false_eq_true, if_false, if_neg h3]
    exact hp

theorem addFormula_inner (hE : NF.EncGood E.cons P E.encF) {f : Fm α} (h : AddableC E P A f) (k : Nat) (s : PS α) : addFormula E (inner E f) k s = addFormula E f k s := by
  rcases h.cases with ⟨e, ha⟩ | ⟨e, h4, h1, h2, h3, hw⟩
  · rw [e]
  · rw [e]
    have hp := (NF.nnf_cndE hE hw true).pbFree
    obtain ⟨p1, p2⟩ := plain_of_pbFree (E := E) hp
    unfold addFormula
    rw [p1, h1, p2, h2]
    simp only [Bool.false_eq_true, if_false]
    cases hn : E.nnf with
    | none => exact absurd hn h3
    | some b =>
      have : addCNFToSolver E b (NF.nnf E.cons E.encF f true) s = addCNFToSolver E b f s := by
        unfold addCNFToSolver
        simp only [hp, h4, Bool.not_true, Bool.or_false, Bool.not_false, Bool.or_true, if_true]
        cases b with
        | true => rw [if_pos rfl, NF.nnf_idemE hE hw]
        | false => rfl
      dsimp only
      rw [this]

theorem add_inner (hE : NF.EncGood E.cons P E.encF) {f : Fm α} (h : AddableC E P A f) (fuel : Nat) (t : FS α) : t.add E fuel (inner E f) = t.add E fuel f := by
  unfold FS.add
  rw [addFormula_inner hE h]

theorem addAll_inner (hE : NF.EncGood E.cons P E.encF) (fuel : Nat) : ∀ {fs : List (Fm α)} (_ : ∀ f ∈ fs, AddableC E P A f) (t : FS α),
    FS.addAll E fuel t (fs.map (inner E)) = FS.addAll E fuel t fs
  | [], _, _ => rfl
  | f :: fs, h, t => by
    rw [List.map_cons]
    unfold FS.addAll
    rw [add_inner hE (h f List.mem_cons_self)]
    cases t.add E fuel f with
    | none => rfl
    | some t => exact addAll_inner hE fuel (fun g hg => h g (List.mem_cons_of_mem _ hg)) t

theorem call_inner (hE : NF.EncGood E.cons P E.encF) {props : List (Fm α)} (h : ∀ f ∈ props, AddableC E P A f) (fuel : Nat) (t : FS α) (r : Sat.Run) (lits : List (Lit α)) :
    t.call E fuel r lits (props.map (inner E)) = t.call E fuel r lits props := by
  unfold FS.call
  simp only [List.map_eq_nil_iff, addAll_inner hE fuel h]

theorem step_inner (hE : NF.EncGood E.cons P E.encF) {o : FOp α} (h : o.OkC E P A) (fuel : Nat) (t : FS α) : t.step E fuel (innerOp E o) = t.step E fuel o := by
  cases o with
  | add f => exact add_inner hE h fuel t
  | call r lits props => simp only [FS.step, innerOp]; rw [call_inner hE h.2.1]
  | save => rfl
  | load k => rfl

theorem run_inner (hE : NF.EncGood E.cons P E.encF) (fuel : Nat) : ∀ {ops : List (FOp α)} (_ : ∀ o ∈ ops, o.OkC E P A) (t : FS α),
    FS.run E fuel t (ops.map (innerOp E)) = FS.run E fuel t ops
  | [], _, _ => rfl
  | o :: os, h, t => by
    rw [List.map_cons]
    unfold FS.run
    rw [step_inner hE (h o List.mem_cons_self)]
    cases t.step E fuel o with
    | none => rfl
    | some t => exact run_inner hE fuel (fun g hg => h g (List.mem_cons_of_mem _ hg)) t

theorem innerOp_ok (hE : NF.EncGood E.cons P E.encF) {o : FOp α} (h : o.OkC E P A) : (innerOp E o).Ok E := by
  cases o with
  | add f => exact inner_addable hE h
  | call r lits props =>
    refine ⟨h.1, fun f hf => ?_⟩
    obtain ⟨g, hg, rfl⟩ := List.mem_map.1 hf
    exact inner_addable hE (h.2.1 g hg)
  | save => trivial
  | load k => trivial

def FA.map (g : Fm α → Fm α) (b : FA α) : FA α := ⟨b.cur.map g, b.snaps.map (·.map g), b.live⟩

omit [DecidableEq α] in
theorem step_map [DecidableEq α] (b : FA α) (o : FOp α) : (b.map (inner E)).step (innerOp E o) = (b.step o).map (inner E) := by
  cases o with
  | add f => simp [FA.step, innerOp, FA.map]
  | call r lits props =>
    simp only [FA.step, innerOp, List.map_eq_nil_iff]
    split <;> simp [FA.map]
  | save => simp [FA.step, innerOp, FA.map]
  | load k =>
    simp only [FA.step, innerOp]
    by_cases hk : k ∈ b.live
    · rw [if_pos hk, if_pos (show k ∈ (b.map (inner E)).live from hk)]
      simp only [FA.map, List.getElem?_map, FA.mk.injEq, and_true]
      cases b.snaps[k]? <;> simp
    · rw [if_neg hk, if_neg (show k ∉ (b.map (inner E)).live from hk)]

theorem faRun_map (ops : List (FOp α)) : FA.run (ops.map (innerOp E)) = (FA.run ops).map (inner E) := by
  have : ∀ (ops : List (FOp α)) (b : FA α), (ops.map (innerOp E)).foldl FA.step (b.map (inner E)) = (ops.foldl FA.step b).map (inner E) := by
    intro ops
    induction ops with
    | nil => intro b; rfl
    | cons o os ih => intro b; rw [List.map_cons, List.foldl_cons, List.foldl_cons, step_map, ih]
  exact this ops {}

/-! ## transfer -/

theorem modelFor_mem {res : CallRes α} {vars : List α} {m : List (Lit α)} (h : res.modelFor vars = some m) (l : Lit α) :
    l ∈ m ↔ l.var ∈ vars ∧ ∃ i, idx res.slots (.usr l.var) = some i ∧ res.model[i]? = some l.pos := by
  unfold CallRes.modelFor at h
  have key : ∀ (ps : List (α × Nat)) (m : List (Lit α)), ps.mapM (fun p => res.model[p.2]?.map fun b => (⟨p.1, b⟩ : Lit α)) = some m →
      (l ∈ m ↔ ∃ i, (l.var, i) ∈ ps ∧ res.model[i]? = some l.pos) := by
    intro ps
    induction ps with
    | nil => intro m h; cases h; simp
    | cons p ps ih =>
      intro m h
      rw [List.mapM_cons] at h
      obtain ⟨x, hx, h⟩ := Option.bind_eq_some_iff.1 h
      obtain ⟨ms, hms, h⟩ := Option.bind_eq_some_iff.1 h
      cases h
      obtain ⟨b, hb, rfl⟩ := Option.map_eq_some_iff.1 hx
      rw [List.mem_cons, ih ms hms]
      constructor
      · rintro (rfl | ⟨i, hi, e⟩)
        · exact ⟨p.2, List.mem_cons_self, hb⟩
        · exact ⟨i, List.mem_cons_of_mem _ hi, e⟩
      · rintro ⟨i, hi, e⟩
        rcases List.mem_cons.1 hi with h | h
        · left
          subst h
          dsimp only at hb
          rw [hb] at e; cases e; rfl
        · exact .inr ⟨i, h, e⟩
  rw [key _ _ h]
  simp only [List.mem_filterMap, Option.map_eq_some_iff]
  constructor
  · rintro ⟨i, ⟨x, hx, j, hj, e⟩, hm⟩
    cases e
    exact ⟨hx, i, hj, hm⟩
  · rintro ⟨hx, i, hi, hm⟩
    exact ⟨i, ⟨_, hx, i, hi, rfl⟩, hm⟩

/-- answers for formulas `G` that imply `F`, and to whose models those of `F` extend on the variables in `A` -/
theorem CallOk.transfer {F G : List (Fm α)} {lits : List (Lit α)} {res : CallRes α} (h : CallOk G lits res)
    (hs : ∀ w : α → Bool, (∀ g ∈ G, g.eval w = true) → ∀ f ∈ F, f.eval w = true)
    (hx : ∀ v : α → Bool, (∀ f ∈ F, f.eval v = true) → ∃ w : α → Bool, (∀ x, ¬A x → w x = v x) ∧ ∀ g ∈ G, g.eval w = true)
    (hl : ∀ l ∈ lits, ¬A l.var) : CallOkOn A F lits res where
  verdict b hb := by
    refine (h.verdict b hb).trans ⟨fun ⟨w, hw, hwl⟩ => ⟨w, hs w hw, hwl⟩, fun ⟨v, hv, hvl⟩ => ?_⟩
    obtain ⟨w, e, hw⟩ := hx v hv
    exact ⟨w, hw, fun l h => by rw [Lit.eval_congr (e _ (hl l h))]; exact hvl l h⟩
  model hv vars := by
    obtain ⟨m, hm, ok⟩ := h.model hv vars
    refine ⟨m, hm, ok.over, ?_, ok.given, fun hF hL v hmv => ?_⟩
    · obtain ⟨v, a, b, c⟩ := ok.consistent
      exact ⟨v, a, hs v b, c⟩
    · obtain ⟨m2, hm2, ok2⟩ := h.model hv (vars ++ G.flatMap Fm.vars)
      obtain ⟨v2, a2, _⟩ := ok2.consistent
      have e3 : ∀ x ∈ vars, (fun x => if x ∈ vars then v x else v2 x) x = v x := fun x hx => if_pos hx
      obtain ⟨b1, b2⟩ := ok2.holds (fun g hg x hx => List.mem_append_right _ (List.mem_flatMap.2 ⟨g, hg, hx⟩)) (fun l h => List.mem_append_left _ (hL l h))
        (fun x => if x ∈ vars then v x else v2 x) fun l hl => by
          by_cases hlv : l.var ∈ vars
          · rw [Lit.eval_congr (e3 _ hlv)]
            exact hmv l ((modelFor_mem hm l).2 ⟨hlv, ((modelFor_mem hm2 l).1 hl).2⟩)
          · rw [Lit.eval_congr (w := v2) (if_neg hlv)]
            exact a2 l hl
      refine ⟨fun f hf => ?_, fun l hl => ?_⟩
      · rw [← hs _ b1 f hf]
        exact Fm.eval_congr f fun x hx => (e3 x (hF f hf x hx)).symm
      · rw [← b2 l hl]
        exact Lit.eval_congr (e3 _ (hL l hl)).symm
  zero := by
    obtain ⟨z, hz, hzz⟩ := h.zero
    refine ⟨z, hz, fun x p hxp hA v hv => ?_⟩
    obtain ⟨w, e, hw⟩ := hx v hv
    rw [← e x hA]
    exact hzz x p hxp w hw

theorem cur_okC {ops : List (FOp α)} (h : ∀ o ∈ ops, o.OkC E P A) : ∀ f ∈ (FA.run ops).cur, AddableC E P A f := by
  have key : ∀ (ops : List (FOp α)) (b : FA α), (∀ o ∈ ops, o.OkC E P A) → (∀ f ∈ b.cur, AddableC E P A f) → (∀ fs ∈ b.snaps, ∀ f ∈ fs, AddableC E P A f) →
      ∀ f ∈ (ops.foldl FA.step b).cur, AddableC E P A f := by
    intro ops
    induction ops with
    | nil => intro b _ h _; exact h
    | cons o os ih =>
      intro b ho hb hn
      rw [List.foldl_cons]
      have ho' : ∀ o ∈ os, o.OkC E P A := fun o h => ho o (List.mem_cons_of_mem _ h)
      have happ : ∀ fs ∈ b.snaps ++ [b.cur], ∀ f ∈ fs, AddableC E P A f := by
        intro fs hfs
        rcases List.mem_append.1 hfs with h | h
        · exact hn fs h
        · rw [List.mem_singleton.1 h]; exact hb
      have h0 := ho o List.mem_cons_self
      cases o with
      | add f =>
        refine ih _ ho' (fun g hg => ?_) hn
        rcases List.mem_append.1 hg with h | h
        · exact hb g h
        · rw [List.mem_singleton.1 h]; exact h0
      | call r lits props =>
        simp only [FA.step]
        split
        · exact ih _ ho' hb hn
        · exact ih _ ho' hb happ
      | save => exact ih _ ho' hb happ
      | load k =>
        simp only [FA.step]
        split
        · refine ih _ ho' (fun g hg => ?_) hn
          cases e : b.snaps[k]? with
          | none => rw [e] at hg; cases hg
          | some fs => rw [e] at hg; exact hn fs (List.mem_of_getElem? e) g hg
        · exact ih _ ho' hb hn
  exact key ops {} h (fun f hf => by cases hf) (fun f hf => by cases hf)

theorem inner_sound (hE : NF.EncGood E.cons P E.encF) {f : Fm α} (h : AddableC E P A f) {w : α → Bool} (hw : (inner E f).eval w = true) : f.eval w = true := by
  rcases h.cases with ⟨e, _⟩ | ⟨e, _, _, _, _, hp⟩
  · rw [← e]; exact hw
  · rw [e] at hw; exact NF.nnf_soundE hE hp hw

theorem inner_complete {f : Fm α} (h : AddableC E P A f) {w : α → Bool} (hg : NF.Good P E.encF w) (hw : f.eval w = true) : (inner E f).eval w = true := by
  rcases h.cases with ⟨e, _⟩ | ⟨e, _, _, _, _, hp⟩
  · rw [e]; exact hw
  · rw [e]; exact NF.nnf_completeE hp hg hw

/-- C50 for formulas with constraints anywhere inside.  The encodings of the constraints `P` imply them, and each assignment can be changed on the auxiliary variables `A` so
that the encodings of all true constraints hold (see `C50_encoders_partial`).  Then after any history of additions, calls, saves and loads the verdict, the models for
the variables asked for, and the literals at level 0 (for the variables outside `A`) are right for the formulas themselves. -/
theorem C50_constraints_partial (hS : ∀ ls l, l ∈ E.srt ls ↔ l ∈ ls) (hE : NF.EncGood E.cons P E.encF) (hJ : ∀ v : α → Bool, ∃ w : α → Bool, (∀ x, ¬A x → w x = v x) ∧ NF.Good P E.encF w)
    {fuel fuel' : Nat} {ops : List (FOp α)} (ho : ∀ o ∈ ops, o.OkC E P A) {t t' : FS α} (h : FS.run E fuel {} ops = some t) {r : Sat.Run}
    {lits : List (Lit α)} {props : List (Fm α)} (hc : (FOp.call r lits props).OkC E P A) {res : CallRes α} (he : t.call E fuel' r lits props = some (t', res)) :
    CallOkOn A ((FA.run ops).cur ++ props) lits res := by
  rw [← run_inner hE fuel ho] at h
  rw [← call_inner hE hc.2.1] at he
  have := C50_partial hS (ops := ops.map (innerOp E)) (fun o h => by obtain ⟨q, hq, rfl⟩ := List.mem_map.1 h; exact innerOp_ok hE (ho q hq)) h (innerOp_ok hE hc) he
  rw [faRun_map] at this
  have ok : ∀ f ∈ (FA.run ops).cur ++ props, AddableC E P A f := fun f hf => (List.mem_append.1 hf).elim (cur_okC ho f) (hc.2.1 f)
  have e : ((FA.run ops).map (inner E)).cur ++ props.map (inner E) = ((FA.run ops).cur ++ props).map (inner E) := by simp [FA.map]
  rw [e] at this
  refine this.transfer (fun w hw f hf => inner_sound hE (ok f hf) (hw _ (List.mem_map.2 ⟨f, hf, rfl⟩))) (fun v hv => ?_) hc.2.2
  obtain ⟨w, e, hg⟩ := hJ v
  refine ⟨w, e, fun g hg' => ?_⟩
  obtain ⟨f, hf, rfl⟩ := List.mem_map.1 hg'
  refine inner_complete (ok f hf) hg ?_
  rw [← hv f hf]
  exact Fm.eval_congr f fun x hx => e x ((ok f hf).2 x hx)

/-- C50, C20 with constraints inside formulas: a state is loaded just if it is valid -/
theorem C50_constraints_load_partial (hS : ∀ ls l, l ∈ E.srt ls ↔ l ∈ ls) (hE : NF.EncGood E.cons P E.encF) {fuel fuel' : Nat} {ops : List (FOp α)}
    (ho : ∀ o ∈ ops, o.OkC E P A) {t t' : FS α} (h : FS.run E fuel {} ops = some t) {k : Nat} {b : Bool} (he : t.load fuel' k = some (t', b)) :
    b = true ↔ k ∈ (FA.run ops).live := by
  rw [← run_inner hE fuel ho] at h
  have := C50_load_partial hS (ops := ops.map (innerOp E)) (fun o h => by obtain ⟨q, hq, rfl⟩ := List.mem_map.1 h; exact innerOp_ok hE (ho q hq)) h he
  rw [faRun_map] at this
  exact this

/-- C50: adding a formula with constraints inside does not panic, with either Plaisted–Greenbaum method -/
theorem C50_constraints_no_panic_partial (hE : NF.EncGood E.cons P E.encF) {f : Fm α} (h : AddableC E P A f) (hp : f.pbFree = false) (h1 : amPart E f = none)
    (h2 : encTop E f = false) (h3 : E.nnf ≠ none) (k : Nat) (s : PS α) : ∃ s', addFormula E f k s = some s' := by
  rcases h.cases with ⟨e, ha⟩ | ⟨e, _, _, _, _, hw⟩
  · unfold Addable at ha
    rw [h1] at ha
    simp only [h2, Bool.false_eq_true, if_false, if_neg h3] at ha
    rw [hp] at ha; cases ha
  · have hc := NF.nnf_cndE hE hw true
    rw [← addFormula_inner hE h, e]
    exact Option.isSome_iff_exists.1 (addFormula_total E _ (.inr (.inr ⟨hc.pbFree, .inr (hc.coreC.imp id (Or.imp id (core_pgOk _)))⟩)) k s)

/-! ## with the modelled encoders -/

/-- A solver whose encoders are those of C12–C16.  At the top of formulas they write clauses to the solver, with auxiliary variables `.aux n`; inside formulas the NNF takes the encodings
from the table `t` of the factory, with auxiliary variables `nm n`. -/
def encEnv (cons : Bool) (srt : List (Lit α) → List (Lit α)) (ord : PB.Terms α → PB.Terms α) (pcfg : PB.PbCfg) (ccfg : Enc.CCCfg) (fuel : Nat) (nm : Nat → α)
    (t : List (Fm α × Nat × List (Enc.Clause α) × Nat)) (nnf atMost : Bool) : Env α where
  cons := cons
  srt := srt
  encF := NF.encTab cons nm t
  enc := fun f k => (NF.encodeTop cons ord pcfg ccfg fuel k f).getD ([], k)
  cnf := fun _ k => ([], k)
  nnf := some nnf
  atMost := atMost

/-- the formulas that may be added: no auxiliary variables; the variables of a native at-most clause are distinct; a constraint at the top is one for which the
encoders are right (`NF.Encodable`) and return; the other constraints have been encoded by the factory -/
structure FmOk (E : Env α) (ord : PB.Terms α → PB.Terms α) (pcfg : PB.PbCfg) (ccfg : Enc.CCCfg) (fuel : Nat) (nm : Nat → α) (gs : List (Fm α)) (f : Fm α) : Prop where
  vars : ∀ x ∈ f.vars, ∀ n, x ≠ nm n
  am : ∀ q, amPart E f = some q → q.1.Nodup ∧ (E.srt (poss q.1)).Nodup
  top : amPart E f = none → encTop E f = true → NF.Encodable pcfg f ∧ ∀ k, (NF.encodeTop E.cons ord pcfg ccfg fuel k f).isSome = true
  inside : amPart E f = none → encTop E f = false → ∀ g ∈ NF.pbs f, NF.isPB g = true → g ∈ gs

/-- operations with such formulas -/
def FOp.OkE (E : Env α) (ord : PB.Terms α → PB.Terms α) (pcfg : PB.PbCfg) (ccfg : Enc.CCCfg) (fuel : Nat) (nm : Nat → α) (gs : List (Fm α)) : FOp α → Prop
  | .add f => FmOk E ord pcfg ccfg fuel nm gs f
  | .call r lits props => r.Calm E.atMost ∧ (∀ f ∈ props, FmOk E ord pcfg ccfg fuel nm gs f) ∧ ∀ l ∈ lits, ∀ n, l.var ≠ nm n
  | _ => True

section
variable {cons nnf atMost : Bool} {srt : List (Lit α) → List (Lit α)} {ord : PB.Terms α → PB.Terms α} {pcfg : PB.PbCfg} {ccfg : Enc.CCCfg} {fuel : Nat} {nm : Nat → α}
  {t : List (Fm α × Nat × List (Enc.Clause α) × Nat)} {gs : List (Fm α)}

theorem FmOk.addable (ho : ∀ l, (ord l).Perm l) {f : Fm α} (h : FmOk (encEnv cons srt ord pcfg ccfg fuel nm t nnf atMost) ord pcfg ccfg fuel nm gs f) :
    AddableC (encEnv cons srt ord pcfg ccfg fuel nm t nnf atMost) (· ∈ gs) (fun x => ∃ n, x = nm n) f := by
  refine ⟨?_, fun x hx ⟨n, e⟩ => h.vars x hx n e⟩
  cases ha : amPart (encEnv cons srt ord pcfg ccfg fuel nm t nnf atMost) f with
  | some q =>
    refine .inl ?_
    have := h.am q ha
    unfold Addable
    rw [ha]
    exact this
  | none =>
    cases he : encTop (encEnv cons srt ord pcfg ccfg fuel nm t nnf atMost) f with
    | true =>
      refine .inl ?_
      obtain ⟨h1, h2⟩ := h.top ha he
      unfold Addable
      rw [ha]
      simp only [he, if_true]
      intro k
      obtain ⟨r, hr⟩ := Option.isSome_iff_exists.1 (h2 k)
      have hr : NF.encodeTop cons ord pcfg ccfg fuel k f = some r := hr
      obtain ⟨o1, o2⟩ := NF.encodeTop_ok ho h1 hr
      show EncOk k ((NF.encodeTop cons ord pcfg ccfg fuel k f).getD ([], k)).2 ((NF.encodeTop cons ord pcfg ccfg fuel k f).getD ([], k)).1 f
      rw [hr]
      exact encOk_of o2 o1
    | false => exact .inr ⟨rfl, rfl, by simp [encEnv], h.inside ha he⟩

/-- C50 for formulas with constraints anywhere, with the modelled encoders: whatever encoders are configured, with either Plaisted–Greenbaum method, with or without native at-most
clauses, whatever constraints the factory encoded in whatever order.
Missing: constraints for which the encoders themselves are wrong (`NF.Encodable`, `C50_eq_false`); `CNFFactory` with constraints inside formulas (C46 gives the CNF, but its encodings are
shared between formulas). -/
theorem C50_encoders_partial (hS : ∀ ls l, l ∈ srt ls ↔ l ∈ ls) (ho : ∀ l, (ord l).Perm l) (hnm : ∀ m n, nm m = nm n → m = n) {k0 : Nat}
    (ht : NF.encodeAll cons ord pcfg ccfg fuel gs k0 = some t) (hg : ∀ g ∈ gs, NF.Encodable pcfg g ∧ ∀ x ∈ g.vars, ∀ n, x ≠ nm n)
    {fuel' fuel'' : Nat} {ops : List (FOp α)} (hop : ∀ o ∈ ops, o.OkE (encEnv cons srt ord pcfg ccfg fuel nm t nnf atMost) ord pcfg ccfg fuel nm gs) {s s' : FS α}
    (h : FS.run (encEnv cons srt ord pcfg ccfg fuel nm t nnf atMost) fuel' {} ops = some s) {r : Sat.Run} {lits : List (Lit α)} {props : List (Fm α)}
    (hc : (FOp.call r lits props).OkE (encEnv cons srt ord pcfg ccfg fuel nm t nnf atMost) ord pcfg ccfg fuel nm gs) {res : CallRes α}
    (he : s.call (encEnv cons srt ord pcfg ccfg fuel nm t nnf atMost) fuel'' r lits props = some (s', res)) :
    CallOkOn (fun x => ∃ n, x = nm n) ((FA.run ops).cur ++ props) lits res := by
  have B : NF.EncBy nm (· ∈ gs) (fun g => (NF.entry t g).1) (fun g => (NF.entry t g).2.2) (fun g => (NF.entry t g).2.1) := by
    obtain ⟨e1, e2⟩ := NF.encodeAll_ok ho gs k0 t (fun g h => (hg g h).1) ht
    exact ⟨hnm, fun g h _ n hx => (hg g h).2 _ hx n rfl, fun g h _ => (e1 g h).2, fun g g' h _ h' _ hne => e2 g h g' h' hne⟩
  refine C50_constraints_partial (P := (· ∈ gs)) hS (B.good (cons := cons)) (B.joint (cons := cons)) (fun o h => ?_) h ?_ he
  · cases o with
    | add f => exact (hop _ h).addable ho
    | call r lits props =>
      have := hop _ h
      exact ⟨this.1, fun f hf => (this.2.1 f hf).addable ho, fun l hl ⟨n, e⟩ => this.2.2 l hl n e⟩
    | save => trivial
    | load k => trivial
  · exact ⟨hc.1, fun f hf => (hc.2.1 f hf).addable ho, fun l hl ⟨n, e⟩ => hc.2.2 l hl n e⟩
end

section ConstrExamples
open Verif.NF (exX exPb)

/-- `x0 → ¬(2·x3 + 3·¬x6 + x9 ≤ 2)`, the constraint inside the formula -/
def exInF : Fm Nat := .impl (exPos 0) (.not (.pbc .le 2 [(2, ⟨3, true⟩), (3, ⟨6, false⟩), (1, ⟨9, true⟩)]))
/-- the constraint at the top -/
def exTopF : Fm Nat := .pbc .le 1 [(2, ⟨3, true⟩), (1, ⟨9, true⟩)]
def exTab : List (Fm Nat × Nat × List (Enc.Clause Nat) × Nat) := (NF.encodeAll false id exPb (Enc.ccOf .best) 9 (NF.pbs exInF) 0).getD []
def exEnvC (nnf : Bool) : Env Nat := encEnv false id id exPb (Enc.ccOf .best) 9 exX exTab nnf false
def exOpsC : List (FOp Nat) := [.add exInF, .call Sat.calmRun [⟨0, true⟩] [], .save, .add exTopF]

example : NF.encodeAll false id exPb (Enc.ccOf .best) 9 (NF.pbs exInF) 0 = some exTab := by
  obtain ⟨t, ht⟩ : ∃ t, NF.encodeAll false id exPb (Enc.ccOf .best) 9 (NF.pbs exInF) 0 = some t := Option.isSome_iff_exists.1 (by decide +kernel)
  unfold exTab; rw [ht]; rfl

theorem exInF_ok (nnf : Bool) : FmOk (exEnvC nnf) id exPb (Enc.ccOf .best) 9 exX (NF.pbs exInF) exInF where
  vars := by
    intro x hx n
    have : exInF.vars = [0, 3, 6, 9] := by decide
    rw [this] at hx; simp only [List.mem_cons, List.not_mem_nil, or_false] at hx
    unfold exX; omega
  am := by intro q h; cases h
  top := by intro _ h; cases h
  inside := fun _ _ _ h _ => h

theorem exTopF_ok (nnf : Bool) : FmOk (exEnvC nnf) id exPb (Enc.ccOf .best) 9 exX (NF.pbs exInF) exTopF where
  vars := by
    intro x hx n
    have : exTopF.vars = [3, 9] := by decide
    rw [this] at hx; simp only [List.mem_cons, List.not_mem_nil, or_false] at hx
    unfold exX; omega
  am := by intro q h; cases h
  top := by
    intro _ _
    refine ⟨⟨by simp, by simp [exPb]⟩, fun k => ?_⟩
    obtain ⟨r, h, _⟩ := PB.C16_encodePBC_ineq (cons := false) (ord := id) (fun _ => .refl _) (cfg := exPb) (ccfg := Enc.ccOf .best) (fuel := 9) (k := k) (c := .le) (rhs := 1)
      (ts := [(2, (⟨3, true⟩ : Lit Nat)), (1, ⟨9, true⟩)]) (by decide) (by simp [exPb])
    exact Option.isSome_iff_exists.2 ⟨r, h⟩
  inside := by intro _ h; cases h

/-- the hypotheses of `C50_encoders_partial` -/
example (nnf : Bool) : ∀ o ∈ exOpsC, o.OkE (exEnvC nnf) id exPb (Enc.ccOf .best) 9 exX (NF.pbs exInF) := by
  intro o ho
  simp only [exOpsC, List.mem_cons, List.not_mem_nil, or_false] at ho
  rcases ho with rfl | rfl | rfl | rfl
  · exact exInF_ok nnf
  · exact ⟨⟨fun n => by simp only [Sat.calmRun]; split <;> rfl, fun e => (by cases e)⟩, fun f hf => (by cases hf), fun l hl n => by rw [List.mem_singleton.1 hl]; show 0 ≠ exX n; unfold exX; omega⟩
  · trivial
  · exact exTopF_ok nnf

def exCallC (nnf : Bool) (ops : List (FOp Nat)) (lits : List (Lit Nat)) : Option (Option Bool × Option (List (Lit Nat))) :=
  match FS.run (exEnvC nnf) 200 {} ops with
  | none => none
  | some t => (t.call (exEnvC nnf) 200 Sat.calmRun lits []).map fun x => (x.2.verdict, x.2.modelFor [0, 3, 6, 9])

example : (exCallC true exOpsC [⟨0, true⟩]).map (·.1) = some (some true) := by decide +kernel
example : (exCallC true exOpsC [⟨0, true⟩, ⟨6, true⟩]).map (·.1) = some (some false) := by decide +kernel
example : (exCallC false (exOpsC ++ [.load 0]) [⟨0, true⟩, ⟨6, true⟩]).map (·.1) = some (some true) := by decide +kernel

/-- C50 (negative): the solver answers UNSAT for the satisfiable constraint `0·x0 + 2·x3 + 3·x6 = 2` (the encoder is wrong, `C16_eq_false`) -/
theorem C50_eq_false : (match FS.run (exEnvC true) 200 {} [.add NF.exEq] with
    | none => none
    | some t => (t.call (exEnvC true) 200 Sat.calmRun [] []).map fun x => x.2.verdict) = some (some false) ∧ ∃ v, HoldsAll v (FA.run [.add NF.exEq]).cur [] := by
  refine ⟨by decide +kernel, fun x => x == 3, fun f hf => ?_, by simp⟩
  have hf : f ∈ [NF.exEq] := hf
  rw [List.mem_singleton.1 hf]; decide +kernel
end ConstrExamples

end Verif.Solver
