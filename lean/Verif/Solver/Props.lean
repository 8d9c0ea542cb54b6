import Verif.Solver.Hist
/-!
# C50: the solver on formulas

For all histories of additions of formulas, calls with additional literals and formulas, saves and loads: the answers of the solver concern the formulas themselves.
-/
namespace Verif.Solver
open Verif
open Verif.Sat (Models lv lv_neg)

variable {α : Type} [DecidableEq α]

/-! ## specification -/

/-- the formulas and literals hold -/
def HoldsAll (v : α → Bool) (F : List (Fm α)) (lits : List (Lit α)) : Prop := (∀ f ∈ F, f.eval v = true) ∧ ∀ l ∈ lits, l.eval v = true

/-- the verdict is right -/
def VerdictOk (F : List (Fm α)) (lits : List (Lit α)) (b : Bool) : Prop := b = true ↔ ∃ v, HoldsAll v F lits

/-- The model for these variables is a consistent set of literals over them with the additional literals among them.  If all variables of the formulas were asked for, every
assignment that fits it satisfies all formulas and literals. -/
structure ModelOk (F : List (Fm α)) (lits : List (Lit α)) (vars : List α) (m : List (Lit α)) : Prop where
  over : ∀ l ∈ m, l.var ∈ vars
  consistent : ∃ v, (∀ l ∈ m, l.eval v = true) ∧ HoldsAll v F lits
  given : ∀ l ∈ lits, l.var ∈ vars → l ∈ m
  holds : (∀ f ∈ F, ∀ x ∈ f.vars, x ∈ vars) → (∀ l ∈ lits, l.var ∈ vars) → ∀ v, (∀ l ∈ m, l.eval v = true) → HoldsAll v F lits

/-- the admissible operations: the formulas can be added, the handler does not cancel at a conflict (see C21), and with at-most clauses the clause
minimisation is not `ClauseMinBasic` (see C18) -/
def FOp.Ok (E : Env α) : FOp α → Prop
  | .add f => Addable E f
  | .call r _ props => r.Calm E.atMost ∧ ∀ f ∈ props, Addable E f
  | _ => True

/-! ## calls -/

theorem mapM_some {β γ : Type} {f : β → Option γ} {g : β → γ} : ∀ {l : List β}, (∀ x ∈ l, f x = some (g x)) → l.mapM f = some (l.map g)
  | [], _ => rfl
  | x :: xs, h => by
    rw [List.mapM_cons, h x List.mem_cons_self, mapM_some fun y hy => h y (List.mem_cons_of_mem _ hy)]; rfl

/-- what a call returns -/
structure CallOk (F : List (Fm α)) (lits : List (Lit α)) (res : CallRes α) : Prop where
  verdict : ∀ b, res.verdict = some b → VerdictOk F lits b
  model : res.verdict = some true → ∀ vars, ∃ m, res.modelFor vars = some m ∧ ModelOk F lits vars m
  zero : ∃ z, res.upZero = some z ∧ ∀ x p, (Slot.name (.usr x), p) ∈ z → ∀ v, (∀ f ∈ F, f.eval v = true) → v x = p

theorem solve_ok {m : Bool} {t : FS α} {a : Sat.A} {b : FA α} (h : FInv m t a b) {lits : List (Lit α)} {asm : List Nat}
    (hasm : ∀ u w, AgreeE t.slots w u → asm.map (lv u) = (lits.map usr).map (·.eval w)) (hidx : ∀ l ∈ lits, ∃ i : Nat, t.slots[i]? = some (.name (.usr l.var)))
    {r : Sat.Run} (hr : r.Calm m) {fuel : Nat} {w : Sat.W} {v : Option Bool} (he : t.w.step fuel (.solve r asm) = some (w, .verdict v)) :
    FInv m { t with w := w } a b ∧ w.handles = t.w.handles ∧ CallOk b.cur lits ⟨v, w.s.model, upZeroLiterals w.s, t.slots⟩ := by
  obtain ⟨h1, h2⟩ := Sat.step_spec (o := .solve r asm) h.core hr he
  have h1 : Sat.Inv m w a := h1
  have h2 : ∀ b, v = some b → Sat.Verdict (Models a.cur) asm w.s b := h2
  unfold Sat.W.step at he
  dsimp only at he
  by_cases hrg : ∀ l ∈ asm, l / 2 < t.w.s.nVars
  · rw [if_pos hrg] at he
    cases hs : Sat.solve r.cfg fuel r.O r.start r.finish asm t.w.s with
    | none => rw [hs] at he; cases he
    | some x =>
      obtain ⟨q, s'⟩ := x
      rw [hs] at he
      have hnv := (Sat.solve_spec (h.core.cf hr) hr.1 hrg h.core.rs hs).2.1.nVars
      cases he
      -- assumptions
      have hlits : ∀ u w, AgreeE t.slots w u → ((∀ p ∈ asm, lv u p = true) ↔ ∀ l ∈ lits, l.eval (fun x => w (.usr x)) = true) := by
        intro u w ha
        have e1 : (∀ p ∈ asm, lv u p = true) ↔ ∀ b ∈ asm.map (lv u), b = true := by simp
        have e2 : (∀ l ∈ lits, l.eval (fun x => w (.usr x)) = true) ↔ ∀ b ∈ (lits.map usr).map (·.eval w), b = true := by
          simp only [List.mem_map, forall_exists_index, and_imp, forall_apply_eq_imp_iff₂]; rfl
        rw [e1, e2, hasm u w ha]
      refine ⟨⟨h1, h.len.trans hnv.symm, h.sem, h.cache, h.live, h.snaps, h.old⟩, rfl, ⟨?_, ?_, ?_⟩⟩
      · intro b hb
        cases b with
        | true =>
          obtain ⟨m1, m2⟩ := h2 true hb
          refine ⟨fun _ => ?_, fun _ => rfl⟩
          obtain ⟨hu, hp⟩ := m2 (fun i => s'.model[i]?.getD false) fun i hi => by rw [List.getElem?_eq_getElem (by rw [m1]; exact hi)]; rfl
          have hag : Agree t.slots (fun x => match idx t.slots (.usr x) with | some i => s'.model[i]?.getD false | none => false) (fun i => s'.model[i]?.getD false) := by
            intro i x hi; dsimp only; rw [idx_eq h.sem.nodup hi]
          refine ⟨_, fun f hf => h.sem.sound _ _ hu hag f hf, ?_⟩
          exact (hlits _ _ (valOf_agree h.sem.nodup hag)).1 hp
        | false =>
          obtain ⟨m1, m2⟩ := h2 false hb
          refine ⟨fun e => (by cases e), fun ⟨v, hv, hl⟩ => ?_⟩
          obtain ⟨u, u1, u2, u3⟩ := h.sem.complete v hv
          have hp := (hlits u _ (valOf_agree h.sem.nodup u1)).2 hl
          obtain ⟨x, hx, hv⟩ := m2 u u3
          have := hp _ (m1 x hx)
          rw [lv_neg, hv] at this; cases this
      · intro hv vars
        obtain ⟨m1, m2⟩ := h2 true hv
        obtain ⟨u, hud⟩ : ∃ u : Nat → Bool, ∀ i, u i = s'.model[i]?.getD false := ⟨_, fun _ => rfl⟩
        have hum : ∀ i < s'.nVars, s'.model[i]? = some (u i) := fun i hi => by rw [hud, List.getElem?_eq_getElem (by rw [m1]; exact hi)]; rfl
        obtain ⟨hu, hp⟩ := m2 u hum
        -- any assignment agreeing with the model on the known variables
        have main : ∀ v : α → Bool, Agree t.slots v u → HoldsAll v b.cur lits := fun v ha =>
          ⟨fun f hf => h.sem.sound u v hu ha f hf, (hlits _ _ (valOf_agree h.sem.nodup ha)).1 hp⟩
        let v0 : α → Bool := fun x => match idx t.slots (.usr x) with | some i => u i | none => false
        have hv0 : ∀ {x i}, idx t.slots (.usr x) = some i → v0 x = u i := fun {x i} hi => by show (match idx t.slots (.usr x) with | some i => u i | none => false) = _; rw [hi]
        have ha0 : Agree t.slots v0 u := fun i x hi => (hv0 (idx_eq h.sem.nodup hi)).symm
        have hmem : ∀ l : Lit α, l ∈ (vars.filterMap fun x => (idx t.slots (.usr x)).map fun i => (x, i)).map (fun p => (⟨p.1, u p.2⟩ : Lit α)) ↔
            l.var ∈ vars ∧ ∃ i, idx t.slots (.usr l.var) = some i ∧ l.pos = u i := by
          intro l
          simp only [List.mem_map, List.mem_filterMap, Option.map_eq_some_iff]
          constructor
          · rintro ⟨p, ⟨x, hx, i, hi, rfl⟩, rfl⟩
            exact ⟨hx, i, hi, rfl⟩
          · rintro ⟨hx, i, hi, hp⟩
            exact ⟨(l.var, i), ⟨l.var, hx, i, hi, rfl⟩, by cases l; simp at hp ⊢; exact hp.symm⟩
        have lev : ∀ (l : Lit α) (v : α → Bool), l.eval v = true ↔ l.pos = v l.var := by
          intro l v
          unfold Lit.eval
          cases l.pos <;> cases v l.var <;> simp
        refine ⟨_, mapM_some (g := fun p => (⟨p.1, u p.2⟩ : Lit α)) fun p hp => ?_, fun l hl => ((hmem l).1 hl).1, ⟨v0, fun l hl => ?_, main v0 ha0⟩, fun l hl hlv => ?_, fun hF hL v hm => ?_⟩
        · obtain ⟨x, _, hx⟩ := List.mem_filterMap.1 hp
          obtain ⟨i, hi, rfl⟩ := Option.map_eq_some_iff.1 hx
          have : i < s'.nVars := by
            rw [hnv, ← h.len]; exact (List.getElem?_eq_some_iff.1 (idx_some hi)).1
          show s'.model[i]?.map _ = _
          rw [hum i this]; rfl
        · obtain ⟨_, i, hi, hp⟩ := (hmem l).1 hl
          rw [lev, hv0 hi, hp]
        · obtain ⟨i, hi⟩ := hidx l hl
          have hi := idx_eq h.sem.nodup hi
          refine (hmem l).2 ⟨hlv, i, hi, ?_⟩
          have := (main v0 ha0).2 l hl
          rw [lev, hv0 hi] at this
          exact this
        · -- values of other known variables come from the model
          let v1 : α → Bool := fun x => if x ∈ vars then v x else v0 x
          have hv1 : ∀ x ∈ vars, v1 x = v x := fun x hx => by show (if x ∈ vars then v x else v0 x) = v x; rw [if_pos hx]
          have ha1 : Agree t.slots v1 u := by
            intro i x hi
            show u i = if x ∈ vars then v x else v0 x
            by_cases hx : x ∈ vars
            · rw [if_pos hx]
              have := hm ⟨x, u i⟩ ((hmem _).2 ⟨hx, i, idx_eq h.sem.nodup hi, rfl⟩)
              rw [lev] at this
              exact this
            · rw [if_neg hx]; exact ha0 i x hi
          obtain ⟨g1, g2⟩ := main v1 ha1
          refine ⟨fun f hf => ?_, fun l hl => ?_⟩
          · rw [Fm.eval_congr f fun x hx => (hv1 x (hF f hf x hx)).symm]; exact g1 f hf
          · rw [Lit.eval_congr (hv1 _ (hL l hl)).symm]; exact g2 l hl
      · obtain ⟨ex, hp⟩ := h1.rs.pi
        have hsub : ∀ l ∈ upZeroLiterals s', l ∈ s'.trail := fun l hl => List.mem_reverse.1 ((List.takeWhile_sublist _).subset hl)
        have hz : ∀ l ∈ upZeroLiterals s', ∃ x, t.slots[l / 2]? = some x := by
          intro l hl
          have := hp.t.trange l (hsub l hl)
          have this : l / 2 < s'.nVars := this
          exact ⟨_, List.getElem?_eq_getElem (by rw [h.len, ← hnv]; exact this)⟩
        refine ⟨(upZeroLiterals s').map fun l => (t.slots[l / 2]?.getD (.name (.aux 0)), l % 2 == 0), mapM_some fun l hl => ?_, fun x p hx v hv => ?_⟩
        · obtain ⟨x, hx⟩ := hz l hl
          show (t.slots[l / 2]?).map _ = _
          rw [hx]; rfl
        · obtain ⟨l, hl, e⟩ := List.mem_map.1 hx
          obtain ⟨y, hy⟩ := hz l hl
          rw [hy] at e
          injection e with e1 e2
          have e1 : y = .name (.usr x) := e1
          subst e1
          obtain ⟨u, u1, u2, u3⟩ := h.sem.complete v hv
          have := hp.m.imp0 l (hsub l hl) (h1.rs.lev (hsub l hl)) u u3
          rw [← u1 _ x hy]
          unfold lv at this
          by_cases hm : l % 2 = 0
          · rw [if_pos hm] at this
            rw [this, ← e2, hm]; rfl
          · rw [if_neg hm] at this
            rw [← e2]
            have : u (l / 2) = false := by simpa using this
            rw [this]
            exact (beq_false_of_ne hm).symm
  · rw [if_neg hrg] at he; cases he

theorem call_ok {E : Env α} (hE : ∀ ls l, l ∈ E.srt ls ↔ l ∈ ls) {t t' : FS α} {a : Sat.A} {b : FA α} (h : FInv E.atMost t a b) {r : Sat.Run} {lits : List (Lit α)} {props : List (Fm α)}
    (ho : (FOp.call r lits props).Ok E) {fuel : Nat} {res : CallRes α} (he : t.call E fuel r lits props = some (t', res)) :
    (∃ a', FInv E.atMost t' a' (b.step (.call r lits props))) ∧ CallOk (b.cur ++ props) lits res := by
  obtain ⟨hr, hp⟩ := ho
  unfold FS.call at he
  obtain ⟨c1, c2, c3, c4⟩ := clauseVec_spec (N := 0) (c := (E.srt lits).map usr) (h.sem.wf t.cache) h.cache fun l hl n e => by
    obtain ⟨m, _, rfl⟩ := List.mem_map.1 hl
    cases e
  have hix : ∀ l ∈ lits, ∃ i : Nat, (clauseVec ((E.srt lits).map usr) ⟨t.slots, t.cache, []⟩).2.slots[i]? = some (Slot.name (.usr l.var)) := by
    intro l hl
    have : ∀ (c : List (Lit (Enc.EV α))) (s : PS α), WF a.cur s → CacheOk (fun _ => False) a.cur s → (∀ l ∈ c, ∀ n, l.var = .aux n → Slot.name l.var ∈ s.slots) → ∀ l ∈ c,
        ∃ i : Nat, (clauseVec c s).2.slots[i]? = some (Slot.name l.var) := by
      intro c
      induction c with
      | nil => intro s _ _ _ l hl; cases hl
      | cons x xs ih =>
        intro s hw hc hn l hl
        obtain ⟨h1, h2⟩ := solverLit_spec (N := 0) hw hc x (hn x List.mem_cons_self)
        have hn' : ∀ m ∈ xs, ∀ n, m.var = .aux n → Slot.name m.var ∈ (solverLit x s).2.slots := fun m hm n e => h2.slots.subset (hn m (List.mem_cons_of_mem _ hm) n e)
        have h3 := (clauseVec_spec (N := 0) (c := xs) h2.wf h2.cache hn').1
        show ∃ i : Nat, (clauseVec xs (solverLit x s).2).2.slots[i]? = _
        rcases List.mem_cons.1 hl with rfl | hl
        · obtain ⟨i, hi, _⟩ := h1.var
          exact ⟨i, getElem_prefix h3.slots hi⟩
        · exact ih _ h2.wf h2.cache hn' l hl
    exact this _ _ (h.sem.wf t.cache) h.cache (fun l hl n e => by obtain ⟨m, _, rfl⟩ := List.mem_map.1 hl; cases e) (usr l) (List.mem_map.2 ⟨l, (hE _ _).2 hl, rfl⟩)
  generalize clauseVec ((E.srt lits).map usr) ⟨t.slots, t.cache, []⟩ = q at *
  obtain ⟨asm, s⟩ := q
  dsimp only at c1 c2 c3 c4 hix he
  have hb : Bal t.slots.length s := c1.bal _ ⟨fun o ho => (by cases ho), rfl⟩
  have hcl : clsOf s.ops = [] := c2
  have hsem : Sem s.slots (a.cur ++ clsOf s.ops) b.cur t.k := by
    have := h.sem.step (f := .tru) c1 (fun u v _ _ _ _ => by rw [hcl]; exact fun c hc => (by cases hc)) (fun _ _ _ _ => by simp)
    exact ⟨this.rng, this.nodup, this.aux, fun u v hu ha f hf => this.sound u v hu ha f (List.mem_append_left _ hf), fun v hv => this.complete v fun f hf => by
      rcases List.mem_append.1 hf with hf | hf
      · exact hv f hf
      · rw [List.mem_singleton.1 hf]; simp⟩
  cases hf : t.flush fuel s t.k with
  | none => rw [hf] at he; cases he
  | some t0 =>
    rw [hf] at he
    dsimp only at he
    obtain ⟨i1, i2, i3⟩ := h.flush (F := b.cur) (Nat.le_refl _) c1.slots hsem c1.cache.rebase hb.toM hf
    have i1 : FInv E.atMost t0 a b := by simpa [hcl] using i1
    -- the state in which the core solver is called
    have key : ∀ t1 a1 b1 v w, FInv E.atMost t1 a1 b1 → s.slots <+: t1.slots → t1.w.step fuel (.solve r asm) = some (w, .verdict v) →
        FInv E.atMost { t1 with w := w } a1 b1 ∧ w.handles = t1.w.handles ∧ CallOk b1.cur lits ⟨v, w.s.model, upZeroLiterals w.s, t1.slots⟩ := by
      intro t1 a1 b1 v w hi hpre hs
      have := solve_ok hi (lits := E.srt lits) (fun u w ha => c4 u w (ha.mono hpre)) (fun l hl => by
        obtain ⟨i, hi⟩ := hix l ((hE _ _).1 hl)
        exact ⟨i, getElem_prefix hpre hi⟩) hr hs
      obtain ⟨j1, j2, j3⟩ := this
      have hh : ∀ v, HoldsAll v b1.cur (E.srt lits) ↔ HoldsAll v b1.cur lits := fun v =>
        and_congr_right fun _ => ⟨fun g l hl => g l ((hE _ _).2 hl), fun g l hl => g l ((hE _ _).1 hl)⟩
      refine ⟨j1, j2, fun b hb => (j3.verdict b hb).trans (exists_congr hh), fun hv vars => ?_, j3.zero⟩
      obtain ⟨m, m1, m2⟩ := j3.model hv vars
      obtain ⟨v0, v1, v2⟩ := m2.consistent
      exact ⟨m, m1, m2.over, ⟨v0, v1, (hh v0).1 v2⟩, fun l hl => m2.given l ((hE _ _).2 hl), fun hF hL v hv => (hh v).1 (m2.holds hF (fun l hl => hL l ((hE _ _).1 hl)) v hv)⟩
    by_cases hpe : props = []
    · subst hpe
      simp only [if_true] at he
      cases hs : t0.w.step fuel (.solve r asm) with
      | none => rw [hs] at he; cases he
      | some x =>
        obtain ⟨w, ans⟩ := x
        rw [hs] at he
        cases ans with
        | verdict v =>
          cases he
          obtain ⟨j1, j2, j3⟩ := key t0 a b v w i1 (by rw [i3]; exact List.prefix_refl _) hs
          refine ⟨⟨a, ?_⟩, by simpa using j3⟩
          have : b.step (.call r lits []) = b := by simp [FA.step]
          rw [this]; exact j1
        | _ => cases he
    · rw [if_neg hpe] at he
      cases ha : FS.addAll E fuel t0.save props with
      | none => rw [ha] at he; cases he
      | some t1 =>
        rw [ha] at he
        dsimp only at he
        have hsv := i1.save
        obtain ⟨Γ, k1, k2, k3⟩ := hsv.addAll hE hp ha
        cases hs : t1.w.step fuel (.solve r asm) with
        | none => rw [hs] at he; cases he
        | some x =>
          obtain ⟨w, ans⟩ := x
          rw [hs] at he
          cases ans with
          | verdict v =>
            dsimp only at he
            rw [if_neg hpe] at he
            obtain ⟨j1, j2, j3⟩ := key t1 _ _ v w k1 (by
              have : t0.slots = s.slots := i3
              rw [← this]; exact k3) hs
            cases hl : FS.load fuel { t1 with w := w } t0.w.handles.length with
            | none => rw [hl] at he; cases he
            | some y =>
              obtain ⟨t2, c⟩ := y
              rw [hl] at he
              cases he
              obtain ⟨l1, l2, l3⟩ := j1.load hl
              have hlen : b.snaps.length = t0.w.handles.length := i1.snaps.trans i1.core.len
              have hst : b.step (.call r lits props) = FA.step { (b.step .save) with cur := (b.step .save).cur ++ props } (.load t0.w.handles.length) := by
                show (if props = [] then b else { b with snaps := b.snaps ++ [b.cur], live := b.live ++ [b.snaps.length] }) =
                  if t0.w.handles.length ∈ b.live ++ [b.snaps.length] then
                    ⟨(b.snaps ++ [b.cur])[t0.w.handles.length]?.getD [], b.snaps ++ [b.cur], (b.live ++ [b.snaps.length]).takeWhile (· ≠ t0.w.handles.length) ++ [t0.w.handles.length]⟩
                  else { (b.step .save) with cur := (b.step .save).cur ++ props }
                rw [if_neg hpe, if_pos (by rw [hlen]; simp), ← hlen, List.getElem?_append_right (Nat.le_refl _), Nat.sub_self]
                have hnl : ∀ j ∈ b.live, j ≠ b.snaps.length := fun j hj e => by
                  rw [i1.live] at hj
                  have := i1.live_lt hj
                  omega
                rw [List.takeWhile_append_of_pos (fun j hj => by simpa using hnl j hj)]
                simp
              exact ⟨⟨_, by rw [hst]; exact l1⟩, j3⟩
          | _ => cases he

/-! ## histories -/

theorem step_ok {E : Env α} (hE : ∀ ls l, l ∈ E.srt ls ↔ l ∈ ls) {t t' : FS α} {a : Sat.A} {b : FA α} (h : FInv E.atMost t a b) {o : FOp α} (ho : o.Ok E) {fuel : Nat}
    (he : t.step E fuel o = some t') : ∃ a', FInv E.atMost t' a' (b.step o) := by
  cases o with
  | add f =>
    obtain ⟨Γ, h1, _⟩ := h.add hE ho he
    exact ⟨_, h1⟩
  | call r lits props =>
    unfold FS.step at he
    dsimp only at he
    cases hc : t.call E fuel r lits props with
    | none => rw [hc] at he; cases he
    | some x =>
      rw [hc] at he
      cases he
      exact (call_ok hE h ho hc).1
  | save => cases he; exact ⟨_, h.save⟩
  | load k =>
    unfold FS.step at he
    dsimp only at he
    cases hc : t.load fuel k with
    | none => rw [hc] at he; cases he
    | some x =>
      rw [hc] at he
      cases he
      exact ⟨_, (h.load hc).1⟩

theorem run_ok {E : Env α} (hE : ∀ ls l, l ∈ E.srt ls ↔ l ∈ ls) {fuel : Nat} : ∀ {ops : List (FOp α)} {t t' : FS α} {a : Sat.A} {b : FA α}, FInv E.atMost t a b → (∀ o ∈ ops, o.Ok E) →
    FS.run E fuel t ops = some t' → ∃ a', FInv E.atMost t' a' (ops.foldl FA.step b)
  | [], t, t', a, b, h, _, he => by cases he; exact ⟨a, h⟩
  | o :: os, t, t', a, b, h, ho, he => by
    unfold FS.run at he
    cases hs : t.step E fuel o with
    | none => rw [hs] at he; cases he
    | some t1 =>
      rw [hs] at he
      obtain ⟨a1, h1⟩ := step_ok hE h (ho o List.mem_cons_self) hs
      exact run_ok (ops := os) hE h1 (fun o' hm => ho o' (List.mem_cons_of_mem _ hm)) he

/-- the formulas on the solver after a history -/
def FA.run (ops : List (FOp α)) : FA α := ops.foldl FA.step {}

/-- C50: After any history a call answers SAT just if there is an assignment satisfying the formulas on the solver, the additional formulas and the additional
literals.  The model is right for each list of variables asked for, and the literals at level 0 follow from the formulas. -/
theorem C50_partial {E : Env α} (hE : ∀ ls l, l ∈ E.srt ls ↔ l ∈ ls) {fuel fuel' : Nat} {ops : List (FOp α)} (ho : ∀ o ∈ ops, o.Ok E) {t t' : FS α} (h : FS.run E fuel {} ops = some t) {r : Sat.Run}
    {lits : List (Lit α)} {props : List (Fm α)} (hc : (FOp.call r lits props).Ok E) {res : CallRes α} (he : t.call E fuel' r lits props = some (t', res)) :
    CallOk ((FA.run ops).cur ++ props) lits res := by
  obtain ⟨a, hi⟩ := run_ok hE finv_init ho h
  exact (call_ok hE hi hc he).2

/-- C50: a call leaves the formulas on the solver as they were -/
theorem C50_call_partial (ops : List (FOp α)) (r : Sat.Run) (lits : List (Lit α)) (props : List (Fm α)) : (FA.run (ops ++ [.call r lits props])).cur = (FA.run ops).cur := by
  show (List.foldl FA.step {} (ops ++ [.call r lits props])).cur = _
  rw [List.foldl_append]
  show (if props = [] then FA.run ops else _).cur = _
  split <;> rfl

/-- C50, C20: a state is loaded just if it is valid; then the formulas are those at the time when it was saved -/
theorem C50_load_partial {E : Env α} (hE : ∀ ls l, l ∈ E.srt ls ↔ l ∈ ls) {fuel fuel' : Nat} {ops : List (FOp α)} (ho : ∀ o ∈ ops, o.Ok E) {t t' : FS α} (h : FS.run E fuel {} ops = some t) {k : Nat}
    {b : Bool} (he : t.load fuel' k = some (t', b)) : b = true ↔ k ∈ (FA.run ops).live := by
  obtain ⟨a, hi⟩ := run_ok hE finv_init ho h
  exact (hi.load he).2.1

theorem snaps_prefix (ops : List (FOp α)) (b : FA α) : b.snaps <+: (ops.foldl FA.step b).snaps := by
  induction ops generalizing b with
  | nil => exact List.prefix_refl _
  | cons o os ih =>
    refine List.IsPrefix.trans ?_ (ih (b.step o))
    cases o with
    | add f => exact List.prefix_refl _
    | call r l p =>
      show b.snaps <+: (if p = [] then b else { b with snaps := b.snaps ++ [b.cur], live := b.live ++ [b.snaps.length] }).snaps
      split
      · exact List.prefix_refl _
      · exact List.prefix_append _ _
    | save => exact List.prefix_append _ _
    | load k =>
      show b.snaps <+: (if k ∈ b.live then { b with cur := b.snaps[k]?.getD [], live := b.live.takeWhile (· ≠ k) ++ [k] } else b).snaps
      split <;> exact List.prefix_refl _

/-- C50, C20: after loading a state the formulas are those at the time of the save, whatever happened in between -/
theorem C50_restores_partial (pre mid : List (FOp α)) (hl : (FA.run pre).snaps.length ∈ (FA.run (pre ++ .save :: mid)).live) :
    (FA.run (pre ++ .save :: mid ++ [.load (FA.run pre).snaps.length])).cur = (FA.run pre).cur := by
  have e : FA.run (pre ++ .save :: mid ++ [.load (FA.run pre).snaps.length]) = (FA.run (pre ++ .save :: mid)).step (.load (FA.run pre).snaps.length) := by
    unfold FA.run; rw [List.foldl_append]; rfl
  have e2 : FA.run (pre ++ .save :: mid) = mid.foldl FA.step ((FA.run pre).step .save) := by
    unfold FA.run; rw [List.foldl_append]; rfl
  rw [e]
  unfold FA.step
  dsimp only
  rw [if_pos hl]
  show ((FA.run (pre ++ .save :: mid)).snaps[_]?).getD [] = _
  obtain ⟨t, ht⟩ := snaps_prefix mid ((FA.run pre).step .save)
  rw [e2, ← ht]
  show (((FA.run pre).snaps ++ [(FA.run pre).cur]) ++ t)[_]?.getD [] = _
  simp

/-- C50: adding a formula without constraints does not panic if its NNF is taken or it has no constants inside -/
theorem C50_no_panic_partial (E : Env α) (f : Fm α) (hf : f.pbFree = true) (hp : NF.isPB f = false) (hn : E.nnf = some true ∨ f = .tru ∨ f = .fls ∨ pgOk f = true) (k : Nat) (s : PS α) :
    ∃ s', addFormula E f k s = some s' := Option.isSome_iff_exists.1 (addFormula_total E f (.inr (.inr ⟨hf, hn⟩)) k s)

/-! ## a concrete history -/

section Examples

/-- the ladder encoding for constraints `∑ xs ≤ 1`; literals in the order given; Plaisted–Greenbaum with NNF -/
def exEnv : Env Nat where
  cons := false
  srt := id
  encF := id
  enc := fun f k => match f with
    | .cc _ _ xs => (Enc.amo ⟨.ladder, 0, 0, 0, .sqrt, 0⟩ 20 k (Enc.usrs xs)).getD ([], k)
    | _ => ([], k)
  cnf := fun _ k => ([], k)
  nnf := some true

def exPos (x : Nat) : Fm Nat := .lit ⟨x, true⟩
def exNeg (x : Nat) : Fm Nat := .lit ⟨x, false⟩
/-- `(x1 ∧ x2) ∨ (x3 ∧ ¬x1)` -/
def exF : Fm Nat := .or [.and [exPos 1, exPos 2], .and [exPos 3, exNeg 1]]
/-- `x2 + x3 + x4 ≤ 1` -/
def exC : Fm Nat := .cc .le 1 [2, 3, 4]
def exOps : List (FOp Nat) := [.add exF, .add exC, .call Sat.calmRun [⟨1, true⟩] [exPos 3], .save, .add (exNeg 3)]

example : ∀ o ∈ exOps, o.Ok exEnv := by
  have hc : Addable exEnv exC := by
    show ∀ k, EncOk k (exEnv.enc exC k).2 (exEnv.enc exC k).1 exC
    intro k
    refine encOk_of (vs := [2, 3, 4]) (f := exC) ?_ ?_
    · have h := Enc.C12_amo (vars := [2, 3, 4]) (k := k) (cfg := ⟨.ladder, 0, 0, 0, .sqrt, 0⟩) (fuel := 20) rfl
      have hq : ∀ v : Nat → Bool, exC.eval v = true ↔ [2, 3, 4].countP v ≤ 1 := fun v => by cases h2 : v 2 <;> cases h3 : v 3 <;> cases h4 : v 4 <;> simp [exC, cntTrue, Cmp.holds, List.countP_cons, *]
      exact ⟨fun w hw => (hq _).2 (h.sound w hw), fun v g hv => h.complete v g ((hq v).1 hv), h.vars⟩
    · show k ≤ k + 2
      omega
  have hr : Sat.calmRun.Calm false := ⟨fun n => by simp only [Sat.calmRun]; split <;> rfl, fun e => by cases e⟩
  have hp : ∀ f, NF.isPB f = false → f.pbFree = true → Addable exEnv f := fun f h1 h2 => by cases f <;> first | exact h2 | cases h1
  intro o ho
  simp only [exOps, List.mem_cons, List.not_mem_nil, or_false] at ho
  rcases ho with rfl | rfl | rfl | rfl | rfl
  · exact hp exF rfl (by decide)
  · exact hc
  · exact ⟨hr, fun f hf => by rw [List.mem_singleton.1 hf]; exact hp _ rfl (by decide)⟩
  · trivial
  · exact hp (exNeg 3) rfl (by decide)

def exCall (ops : List (FOp Nat)) (lits : List (Lit Nat)) (props : List (Fm Nat)) : Option (Option Bool × Option (List (Lit Nat))) :=
  match FS.run exEnv 80 {} ops with
  | none => none
  | some t => (t.call exEnv 80 Sat.calmRun lits props).map fun x => (x.2.verdict, x.2.modelFor [1, 2, 3, 4])

example : (exCall exOps [] []) = some (some true, some [⟨1, true⟩, ⟨2, true⟩, ⟨3, false⟩, ⟨4, false⟩]) := by decide +kernel
example : (exCall exOps [⟨4, true⟩] []).map (·.1) = some (some false) := by decide +kernel
example : (exCall exOps [] [exNeg 2]).map (·.1) = some (some false) := by decide +kernel
example : (exCall (exOps ++ [.load 1]) [] [exNeg 2]).map (·.1) = some (some true) := by decide +kernel
example : (FA.run (exOps.take 3)).snaps.length ∈ (FA.run exOps).live := by decide +kernel

/-- as `exEnv` with at-most clauses -/
def amEnv : Env Nat := { exEnv with atMost := true }
def amFOps : List (FOp Nat) := [.add (.cc .le 1 [0, 1, 2]), .add (.or [exPos 1, exPos 2, exNeg 3, exPos 4]), .add (.or [exPos 1, exPos 2, exNeg 3, exNeg 4])]

theorem amFOps_ok : ∀ o ∈ amFOps, o.Ok amEnv := by
  intro o ho
  simp only [amFOps, List.mem_cons, List.not_mem_nil, or_false] at ho
  rcases ho with rfl | rfl | rfl
  · show [0, 1, 2].Nodup ∧ (poss [0, 1, 2]).Nodup
    decide
  · show Fm.pbFree _ = true
    decide
  · show Fm.pbFree _ = true
    decide

def amCall (r : Sat.Run) (ops : List (FOp Nat)) (lits : List (Lit Nat)) (props : List (Fm Nat)) : Option (Option Bool) :=
  match FS.run amEnv 80 {} ops with
  | none => none
  | some t => (t.call amEnv 80 r lits props).map fun x => x.2.verdict

/-- `C50` with at-most clauses -/
example : amCall Sat.calmRun amFOps [⟨0, true⟩, ⟨3, true⟩] [] = some (some false) := by decide +kernel
example : amCall Sat.calmRun (amFOps ++ [.call Sat.calmRun [⟨0, true⟩, ⟨3, true⟩] []]) [⟨3, true⟩] [.cc .eq 1 [1, 2]] = some (some true) := by decide +kernel
example : amCall Sat.calmRun (amFOps ++ [.call Sat.calmRun [⟨0, true⟩, ⟨3, true⟩] []]) [⟨3, true⟩] [.cc .eq 1 [0, 4], .cc .lt 4 [0, 4, 1, 2, 3]] = some (some true) := by decide +kernel

/-- C50 is false with at-most clauses and `ClauseMinBasic`: the solver answers UNSAT although the formulas and the additional literal have a model (see C18) -/
theorem C50_atMost_false : ∃ r : Sat.Run, (∀ n, (r.O n).resume = true) ∧ r.cfg = .basic ∧ r.start = true ∧ r.finish = true ∧
    amCall r (amFOps ++ [.call r [⟨0, true⟩, ⟨3, true⟩] []]) [⟨3, true⟩] [] = some (some false) ∧
    ∃ v, HoldsAll v (FA.run (amFOps ++ [.call r [⟨0, true⟩, ⟨3, true⟩] []])).cur [⟨3, true⟩] := by
  refine ⟨{ cfg := .basic, O := fun _ => Sat.calm }, fun _ => rfl, rfl, rfl, rfl, by decide +kernel, fun v => v == 1 || v == 3, ?_, by decide⟩
  intro f hf
  have hf : f ∈ [Fm.cc .le 1 [0, 1, 2], .or [exPos 1, exPos 2, exNeg 3, exPos 4], .or [exPos 1, exPos 2, exNeg 3, exNeg 4]] := hf
  simp only [List.mem_cons, List.not_mem_nil, or_false] at hf
  rcases hf with rfl | rfl | rfl <;> simp [cntTrue, Cmp.holds, exPos, exNeg, Lit.eval]

end Examples

end Verif.Solver
