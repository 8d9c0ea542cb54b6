import Verif.Sat.Search
/-!
# `Solve`, `AddClause`, `NewVar` between resting states
-/
namespace Verif.Sat

/-! ## rounds of the search -/

/-- invariant between two rounds -/
structure SI (Φ : (Nat → Bool) → Prop) (asm : List Nat) (s : S) : Prop where
  pi : PI Φ TT s (fun _ _ => False)
  sx : SX asm s

/-- a literal of the trail at level 0 cannot be false in a model -/
theorem Confl.unsat {Φ : (Nat → Bool) → Prop} {J : Nat → Prop} {s : S} {c : Nat} (h : Confl Φ J s c) (hd : s.dl = 0) (u : Nat → Bool) : ¬ Φ u := by
  intro hu
  obtain ⟨q, hq, hv⟩ := h.sat hu
  have h1 := h.fls q hq
  have h2 := h.pi.m.imp0 _ h1 (by have := h.pi.t.lev_le h1; omega) u hu
  rw [lv_neg, hv] at h2; cases h2

theorem OnlyL.sx {asm : List Nat} {s s' : S} (h : OnlyL s s') (hx : SX asm s) : SX asm s' := by
  obtain ⟨L, w, wb, rfl, hs⟩ := h.eq
  exact ⟨hx.un, hx.hr, hx.a1, hx.a2⟩

theorem OnlyL.same {s s' : S} (h : OnlyL s s') : s'.ok = s.ok ∧ s'.conflict = s.conflict ∧ s'.qhead = s.qhead ∧ s'.trail = s.trail ∧ s'.nVars = s.nVars := by
  obtain ⟨L, w, wb, rfl, hs⟩ := h.eq
  exact ⟨rfl, rfl, rfl, rfl, rfl⟩

/-- cutting back to level 0, whatever the level is -/
theorem cancel0_spec {Φ : (Nat → Bool) → Prop} {asm : List Nat} {s : S} (h : PI Φ TT s (fun _ _ => False)) (hx : SX asm s) (hq : s.qhead = s.trail.length) :
    PI Φ TT (cancelUntil s 0) (fun _ _ => False) ∧ SX asm (cancelUntil s 0) ∧ Evo s (cancelUntil s 0) ∧ (cancelUntil s 0).ok = s.ok ∧ (cancelUntil s 0).conflict = s.conflict ∧
      (cancelUntil s 0).model = s.model ∧ (cancelUntil s 0).dl = 0 ∧ (cancelUntil s 0).qhead = (cancelUntil s 0).trail.length := by
  by_cases hd : 0 < s.dl
  · obtain ⟨h1, hcut, hqh⟩ := cancel_spec (h.congr (ex' := fun _ w => s.level (w / 2) = s.dl) fun _ _ h => h.elim) hd
    exact ⟨h1, hx.cut hcut hd, hcut.evo, hcut.ok, hcut.conflict, hcut.model, hcut.dl, hqh⟩
  · have e : cancelUntil s 0 = s := by unfold cancelUntil; rw [if_neg hd]
    rw [e]
    exact ⟨h, hx, Evo.refl s, rfl, rfl, rfl, by omega, hq⟩

/-- how a round ends -/
def IterOk (Φ : (Nat → Bool) → Prop) (asm : List Nat) (s : S) : Out → Prop
  | .cont s' => SI Φ asm s' ∧ Evo s s' ∧ s'.ok = s.ok ∧ s'.conflict = s.conflict
  | .sat s' => SI Φ asm s' ∧ Evo s s' ∧ s'.ok = s.ok ∧ s'.conflict = s.conflict ∧ s'.qhead = s'.trail.length ∧ asm.length ≤ s'.dl ∧ ∀ v < s'.nVars, s'.val v ≠ none
  | .unsat s' => Evo s s' ∧ s'.ok = s.ok ∧
      ((s'.conflict = s.conflict ∧ s'.dl = 0 ∧ SX asm s' ∧ (∃ c, Confl Φ TT s' c)) ∨
       (SI Φ asm s' ∧ s'.qhead = s'.trail.length ∧ s'.conflict ≠ [] ∧ (∀ x ∈ s'.conflict, neg x ∈ asm) ∧ ∀ u, Φ u → Sat u s'.conflict))

theorem iter_spec {Φ : (Nat → Bool) → Prop} {asm : List Nat} {s : S} {cfg : Min} {fuel : Nat} {ch : Choice} {o : Out} (hcf : cfg = .basic → s.ams = []) (hr : ch.resume = true) (hasm : ∀ p ∈ asm, p / 2 < s.nVars)
    (h : SI Φ asm s) (he : iter cfg fuel ch asm s = some o) : IterOk Φ asm s o := by
  unfold iter at he
  cases hp : propagate fuel s with
  | none => rw [hp] at he; cases he
  | some r =>
    obtain ⟨s1, r⟩ := r
    rw [hp] at he
    obtain ⟨f, hp1⟩ := propagate_spec fuel s s1 r h.pi hp
    have hx1 := h.sx.frame f
    cases r with
    | some c =>
      dsimp only at he hp1
      rw [if_neg (by rw [hr]; simp)] at he
      by_cases hd : s1.dl = 0
      · rw [if_pos hd] at he
        cases he
        exact ⟨f.evo, f.ok, Or.inl ⟨f.conflict, hd, hx1, c, hp1⟩⟩
      · rw [if_neg hd] at he
        cases ha : analyze cfg fuel ch s1 c with
        | none => rw [ha] at he; cases he
        | some a =>
          obtain ⟨l0, out, bt, seen⟩ := a
          rw [ha] at he
          cases he
          obtain ⟨l1, l2, l3, l4, l5⟩ := learn_spec hp1 hx1 (analyze_spec (by omega) hp1 (fun e => f.ams.trans (hcf e)) ha)
          exact ⟨⟨l1, l2⟩, f.evo.trans l3, l4.trans f.ok, l5.trans f.conflict⟩
    | none =>
      dsimp only at he hp1
      obtain ⟨hp1, hq1⟩ := hp1
      by_cases hrs : ch.restart = true
      · rw [if_pos hrs] at he
        cases he
        obtain ⟨c1, c2, c3, c4, c5, _⟩ := cancel0_spec hp1 hx1 hq1
        exact ⟨⟨c1, c2⟩, f.evo.trans c3, c4.trans f.ok, c5.trans f.conflict⟩
      · rw [if_neg hrs] at he
        obtain ⟨s2, hs2, h2, hx2, ev2, e2⟩ : ∃ s2, (if ch.reduce = true then reduceDB ch.del s1 else s1) = s2 ∧ PI Φ TT s2 (fun _ _ => False) ∧ SX asm s2 ∧ Evo s1 s2 ∧
            s2.ok = s1.ok ∧ s2.conflict = s1.conflict ∧ s2.qhead = s1.qhead ∧ s2.trail = s1.trail ∧ s2.nVars = s1.nVars := by
          refine ⟨_, rfl, ?_⟩
          split
          · obtain ⟨r1, r2⟩ := reduceDB_spec ch.del hp1
            exact ⟨r1, r2.sx hx1, r2.evo, r2.same⟩
          · exact ⟨hp1, hx1, Evo.refl _, rfl, rfl, rfl, rfl, rfl⟩
        rw [hs2] at he
        obtain ⟨k1, k2, k3, k4, k5⟩ := e2
        have hq2 : s2.qhead = s2.trail.length := by rw [k3, k4, hq1]
        obtain ⟨m1, m2, ⟨L, m3⟩, m4⟩ := asmLoop_spec (asm.drop s2.dl) s2 h2 hx2 hq2 rfl
        generalize hal : asmLoop s2 (asm.drop s2.dl) = al at he m1 m2 m3 m4
        obtain ⟨s3, a⟩ := al
        dsimp only at m1 m2 m3 m4 he
        have hq3 : s3.qhead = s3.trail.length := by rw [m3]; exact hq2
        have ev3 : Evo s s3 := by
          refine (f.evo.trans ev2).trans ?_
          rw [m3]
          exact ⟨rfl, rfl, rfl, rfl, fun _ _ => .refl _, fun _ hc => Or.inl ⟨hc, .refl _, rfl⟩, List.prefix_refl _, rfl, fun _ => .refl _⟩
        have hok3 : s3.ok = s.ok := by rw [m3]; exact k1.trans f.ok
        have hco3 : s3.conflict = s.conflict := by rw [m3]; exact k2.trans f.conflict
        have hn3 : s3.nVars = s.nVars := by rw [m3]; exact k5.trans f.nVars
        have hval3 : ∀ p, s3.value p = s2.value p := by rw [m3]; intro p; rfl
        cases a with
        | failed p =>
          dsimp only at he m4
          cases he
          obtain ⟨c, e, z1, z2, z3⟩ := analyzeFinal_spec m1 m2 m4.1 (by rw [hval3]; exact m4.2)
          rw [e]
          refine ⟨⟨ev3.nVars, ev3.clauses, ev3.stateId, ev3.valid, ev3.old, ev3.lr, ev3.units, ev3.ams, ev3.am⟩, hok3, Or.inr ⟨⟨m1.irrel rfl, ⟨m2.un, m2.hr, m2.a1, m2.a2⟩⟩, hq3, z1, z2, z3⟩⟩
        | next p =>
          dsimp only at he m4
          cases he
          obtain ⟨d1, d2, d3⟩ := decide_spec m1 m2 hq3 (by rw [hval3]; exact m4.2) (by rw [hn3]; exact hasm p (List.mem_of_getElem? m4.1)) (Or.inl m4.1)
          exact ⟨⟨d1, d2⟩, ev3.trans d3, hok3, hco3⟩
        | free =>
          dsimp only at he m4
          have hpk := pick_spec ch m1 m2 hq3 m4
          generalize hpb : pickBranch ch s3 = pb at he hpk
          obtain ⟨s4, p⟩ := pb
          cases p with
          | none =>
            dsimp only at he hpk
            cases he
            obtain ⟨e, hall⟩ := hpk
            subst e
            refine ⟨⟨?_, ⟨m2.un, by simp, m2.a1, m2.a2⟩⟩, ⟨ev3.nVars, ev3.clauses, ev3.stateId, ev3.valid, ev3.old, ev3.lr, ev3.units, ev3.ams, ev3.am⟩, hok3, hco3, hq3, m4, hall⟩
            exact ⟨⟨m1.d.idlt, m1.d.nodupAtt, m1.d.clNodup, m1.d.range, m1.d.wNodup, m1.d.wMem, m1.d.wAll, m1.d.bMem, m1.d.bAll, m1.d.seen0, m1.d.wOne⟩,
              ⟨m1.t.tval, m1.t.trange, m1.t.tlev, m1.t.tdup, m1.t.treason, m1.t.tlimS, m1.t.tlimLe, fun v hv h0 => absurd h0 (hall v hv), m1.t.qle⟩,
              ⟨m1.m.db, m1.m.imp0, m1.m.jcl, m1.m.jtr⟩, m1.q, m1.w, m1.a.congr rfl⟩
          | some p =>
            dsimp only at he hpk
            cases he
            obtain ⟨d1, d2, d3, d4, d5⟩ := hpk
            exact ⟨⟨d1, d2⟩, ev3.trans d3, d4.trans hok3, d5.trans hco3⟩

/-- how the search ends -/
def SearchOk (Φ : (Nat → Bool) → Prop) (asm : List Nat) (s : S) (b : Bool) (s' : S) : Prop := IterOk Φ asm s (if b then .sat s' else .unsat s')

theorem searchLoop_spec {Φ : (Nat → Bool) → Prop} {asm : List Nat} {cfg : Min} {fuel : Nat} {O : Nat → Choice} (hr : ∀ n, (O n).resume = true) : ∀ (k n : Nat) (s : S) (b : Bool) (s' : S),
    (cfg = .basic → s.ams = []) → (∀ p ∈ asm, p / 2 < s.nVars) → SI Φ asm s → searchLoop cfg fuel O asm k n s = some (b, s') → SearchOk Φ asm s b s'
  | 0, _, _, _, _, _, _, _, he => by cases he
  | k + 1, n, s, b, s', hcf, hasm, h, he => by
    unfold searchLoop at he
    cases hi : iter cfg fuel (O n) asm s with
    | none => rw [hi] at he; cases he
    | some o =>
      rw [hi] at he
      have hok := iter_spec hcf (hr n) hasm h hi
      cases o with
      | sat s1 => cases he; exact hok
      | unsat s1 => cases he; exact hok
      | cont s1 =>
        obtain ⟨h1, h2, h3, h4⟩ := hok
        have ih := searchLoop_spec hr k (n + 1) s1 b s' (fun e => h2.ams.trans (hcf e)) (by rw [h2.nVars]; exact hasm) h1 he
        cases b with
        | true =>
          obtain ⟨i1, i2, i3, i4, i5⟩ := ih
          exact ⟨i1, h2.trans i2, i3.trans h3, i4.trans h4, i5⟩
        | false =>
          obtain ⟨i1, i2, i3⟩ := ih
          refine ⟨h2.trans i1, i2.trans h3, ?_⟩
          rcases i3 with ⟨j1, j2⟩ | i3
          · exact Or.inl ⟨j1.trans h4, j2⟩
          · exact Or.inr i3

/-! ## resting states -/

/-- clauses, unit clauses and at-most clauses of the solver hold -/
def S.Holds (s : S) (u : Nat → Bool) : Prop := (∀ c ∈ s.clauses, Sat u (s.cls c).lits) ∧ (∀ l ∈ s.units, lv u l = true) ∧
  ∀ c ∈ s.ams, ∀ k, s.am c = some k → (k.lits.filter (lv u)).length ≤ k.card

/-- state between two calls; `Φ` is the conjunction of the clauses given to the solver -/
structure RS (Φ : (Nat → Bool) → Prop) (s : S) : Prop where
  dl0 : s.dl = 0
  pi : ∃ ex, PI Φ TT s ex
  hr : ∀ v ∈ s.heap, v < s.nVars
  run : s.ok = true → PI Φ TT s (fun _ _ => False) ∧ s.qhead = s.trail.length ∧ (∀ l ∈ s.units, l ∈ s.trail) ∧ ∀ u, s.Holds u → Φ u
  dead : s.ok = false → ∀ u, ¬ Φ u

theorem RS.lev {Φ : (Nat → Bool) → Prop} {s : S} (h : RS Φ s) {l : Nat} (hl : l ∈ s.trail) : s.level (l / 2) = 0 := by
  obtain ⟨ex, hp⟩ := h.pi
  have := hp.t.lev_le hl
  rw [h.dl0] at this; omega

theorem RS.sx {Φ : (Nat → Bool) → Prop} {s : S} (h : RS Φ s) (hok : s.ok = true) (asm : List Nat) : SX asm s := by
  refine ⟨fun l hl => ?_, h.hr, fun l hl hp => ?_, fun i p hi => ?_⟩
  · have := (h.run hok).2.2.1 l hl
    exact ⟨this, h.lev this⟩
  · have := h.lev hl; omega
  · rw [h.dl0] at hi; omega

/-- the clauses and units of the solver mean the same as the given clauses -/
theorem RS.holds_iff {Φ : (Nat → Bool) → Prop} {s : S} (h : RS Φ s) (hok : s.ok = true) (u : Nat → Bool) : s.Holds u ↔ Φ u := by
  obtain ⟨h1, _, h3, h4⟩ := h.run hok
  refine ⟨h4 u, fun hu => ⟨fun c hc => h1.m.db c (List.mem_append_left _ hc) u hu, fun l hl => h1.m.imp0 l (h3 l hl) (h.lev (h3 l hl)) u hu, fun c hc k hk => h1.a.sem c hc k hk u hu⟩⟩

theorem Evo.holds {s s' : S} (h : Evo s s') {u : Nat → Bool} (hu : s'.Holds u) : s.Holds u := by
  refine ⟨fun c hc => ?_, fun l hl => hu.2.1 l (h.units.subset hl), fun c hc k hk => ?_⟩
  · obtain ⟨l, hl, hv⟩ := hu.1 c (by rw [h.clauses]; exact hc)
    exact ⟨l, (h.old c hc).mem_iff.1 hl, hv⟩
  · have h1 := (h.am c).symm
    rw [hk] at h1
    obtain ⟨k', e1, e2, e3⟩ := h1.is
    have := hu.2.2 c (by rw [h.ams]; exact hc) k' e1
    rw [(e2.filter _).length_eq, e3]
    exact this

theorem lv_of_trail {s : S} (ht : Tr s) {u : Nat → Bool} (hu : ∀ v < s.nVars, u v = (s.val v == some true)) {l : Nat} (hl : l ∈ s.trail) : lv u l = true := by
  have hv := (ht.tval l).2 hl
  have hn := ht.trange l hl
  unfold S.value at hv
  unfold lv
  rw [hu _ hn]
  rcases Nat.mod_two_eq_zero_or_one l with h | h
  · rw [if_pos h]
    rw [if_neg (by omega)] at hv
    rw [hv]; rfl
  · rw [if_neg (by omega)]
    rw [if_pos h] at hv
    cases hw : s.val (l / 2) with
    | none => rw [hw] at hv; cases hv
    | some b => rw [hw] at hv; cases b <;> simp at hv ⊢

/-- all variables assigned, nothing left to propagate: the assignment satisfies the clauses -/
theorem sat_model {Φ : (Nat → Bool) → Prop} {s : S} (h : PI Φ TT s (fun _ _ => False)) (hq : s.qhead = s.trail.length) (hall : ∀ v < s.nVars, s.val v ≠ none) {u : Nat → Bool}
    (hu : ∀ v < s.nVars, u v = (s.val v == some true)) {c : Nat} (hc : c ∈ s.att) : Sat u (s.cls c).lits := by
  have ha : (s.cls c).a ∈ (s.cls c).lits := by simp [Cls.lits]
  have hn := h.d.range c hc _ ha
  cases hv : s.value (s.cls c).a with
  | none => exact absurd ((value_none s _).1 hv) (hall _ hn)
  | some b =>
    cases b with
    | true => exact ⟨_, ha, lv_of_trail h.t hu ((h.t.tval _).1 hv)⟩
    | false =>
      have hp : neg (s.cls c).a ∈ s.proc := by
        unfold S.proc
        rw [hq, Nat.sub_self, List.drop_zero]
        exact (h.t.false_iff _).1 hv
      obtain ⟨y, h1, h2, _⟩ := h.w c hc _ (Or.inl rfl) hp not_false
      exact ⟨y, h1, lv_of_trail h.t hu h2⟩

/-- at most one of the watched literals of an at-most clause is true -/
theorem sat_amW {Φ : (Nat → Bool) → Prop} {s : S} (h : PI Φ TT s (fun _ _ => False)) (hq : s.qhead = s.trail.length) (hall : ∀ v < s.nVars, s.val v ≠ none) {u : Nat → Bool}
    (hu : ∀ v < s.nVars, u v = (s.val v == some true)) {c : Nat} (hc : c ∈ s.ams) {k : Am} (hk : s.am c = some k) : (k.w.filter (lv u)).length ≤ 1 := by
  have htr : ∀ x ∈ k.lits, lv u x = true → x ∈ s.trail := by
    intro x hx hv
    have hn := h.a.range c hc k hk x hx
    cases hsv : s.value x with
    | none => exact absurd ((value_none s _).1 hsv) (hall _ hn)
    | some b =>
      cases b with
      | true => exact (h.t.tval x).1 hsv
      | false =>
        have := lv_of_trail h.t hu ((h.t.false_iff x).1 hsv)
        rw [lv_neg, hv] at this; cases this
  cases hf : k.w.filter (lv u) with
  | nil => simp
  | cons x r =>
    have hx : x ∈ k.w.filter (lv u) := by rw [hf]; exact List.mem_cons_self
    obtain ⟨hx1, hx2⟩ := List.mem_filter.1 hx
    have hxt := htr x (List.mem_append_left _ hx1) hx2
    have hp : x ∈ s.proc := by
      unfold S.proc
      rw [hq, Nat.sub_self, List.drop_zero]
      exact hxt
    cases r with
    | nil => simp
    | cons y r =>
      have hy : y ∈ k.w.filter (lv u) := by rw [hf]; simp
      obtain ⟨hy1, hy2⟩ := List.mem_filter.1 hy
      have hnd := h.a.nodup c hc k hk
      unfold Am.lits at hnd
      rw [List.nodup_append] at hnd
      have hnf := hnd.1.filter (lv u)
      rw [hf] at hnf
      have hne : y ≠ x := by
        rintro rfl
        simp at hnf
      have := (h.a.w c hc k hk x hx1 hp not_false y hy1 hne).1
      exact absurd (htr y (List.mem_append_left _ hy1) hy2) (fun e => h.t.not_both e this)

/-- the same for the at-most clauses -/
theorem sat_am {Φ : (Nat → Bool) → Prop} {s : S} (h : PI Φ TT s (fun _ _ => False)) (hq : s.qhead = s.trail.length) (hall : ∀ v < s.nVars, s.val v ≠ none) {u : Nat → Bool}
    (hu : ∀ v < s.nVars, u v = (s.val v == some true)) {c : Nat} (hc : c ∈ s.ams) {k : Am} (hk : s.am c = some k) : (k.lits.filter (lv u)).length ≤ k.card := by
  have hw := sat_amW h hq hall hu hc hk
  unfold Am.lits Am.card
  rw [List.filter_append, List.length_append]
  have := List.length_filter_le (lv u) k.u
  omega

/-- meaning of the verdict -/
def Verdict (Φ : (Nat → Bool) → Prop) (asm : List Nat) (s' : S) : Bool → Prop
  | true => s'.model.length = s'.nVars ∧ ∀ u : Nat → Bool, (∀ v < s'.nVars, s'.model[v]? = some (u v)) → Φ u ∧ ∀ p ∈ asm, lv u p = true
  | false => (∀ x ∈ s'.conflict, neg x ∈ asm) ∧ ∀ u, Φ u → Sat u s'.conflict

theorem solve_spec {Φ : (Nat → Bool) → Prop} {asm : List Nat} {cfg : Min} {fuel : Nat} {O : Nat → Choice} {start finish : Bool} {s s' : S} {r : Option Bool}
    (hcf : cfg = .basic → s.ams = []) (hr : ∀ n, (O n).resume = true) (hasm : ∀ p ∈ asm, p / 2 < s.nVars) (h : RS Φ s) (he : solve cfg fuel O start finish asm s = some (r, s')) :
    RS Φ s' ∧ Evo s s' ∧ ∀ b, r = some b → Verdict Φ asm s' b := by
  unfold solve at he
  by_cases hs : start = false
  · rw [if_pos hs] at he
    cases he
    exact ⟨h, Evo.refl _, fun _ e => by cases e⟩
  rw [if_neg hs] at he
  dsimp only at he
  by_cases hok : s.ok = false
  · rw [if_pos hok] at he
    cases he
    refine ⟨⟨h.dl0, ?_, h.hr, ?_, h.dead⟩, ⟨rfl, rfl, rfl, rfl, fun _ _ => .refl _, fun _ hc => Or.inl ⟨hc, .refl _, rfl⟩, List.prefix_refl _, rfl, fun _ => .refl _⟩, fun b e => ?_⟩
    · obtain ⟨ex, hp⟩ := h.pi
      exact ⟨ex, hp.irrel rfl⟩
    · intro e
      have e : s.ok = true := e
      rw [hok] at e; cases e
    · cases e
      exact ⟨by simp, fun u hu => absurd hu (h.dead hok u)⟩
  rw [if_neg hok] at he
  have hok : s.ok = true := by simpa using hok
  obtain ⟨r1, r2, r3, r4⟩ := h.run hok
  cases hsl : searchLoop cfg fuel O asm fuel 0 { s with model := [], conflict := [] } with
  | none => rw [hsl] at he; cases he
  | some x =>
    obtain ⟨b, s1⟩ := x
    rw [hsl] at he
    dsimp only at he
    have hx0 := h.sx hok asm
    have hso := searchLoop_spec (Φ := Φ) hr fuel 0 { s with model := [], conflict := [] } b s1 hcf hasm ⟨r1.irrel rfl, ⟨hx0.un, hx0.hr, hx0.a1, hx0.a2⟩⟩ hsl
    have ev0 : Evo s { s with model := [], conflict := [] } := ⟨rfl, rfl, rfl, rfl, fun _ _ => .refl _, fun _ hc => Or.inl ⟨hc, .refl _, rfl⟩, List.prefix_refl _, rfl, fun _ => .refl _⟩
    have run' : ∀ s2 : S, PI Φ TT s2 (fun _ _ => False) → SX asm s2 → Evo s s2 → s2.ok = true → s2.qhead = s2.trail.length →
        RS Φ (cancelUntil s2 0) ∧ Evo s (cancelUntil s2 0) ∧ (cancelUntil s2 0).model = s2.model ∧ (cancelUntil s2 0).conflict = s2.conflict ∧ (cancelUntil s2 0).nVars = s2.nVars := by
      intro s2 hp hsx hev hok2 hq
      obtain ⟨c1, c2, c3, c4, c5, c6, c7, c8⟩ := cancel0_spec hp hsx hq
      refine ⟨⟨c7, ⟨_, c1⟩, c2.hr, fun _ => ⟨c1, c8, fun l hl => (c2.un l hl).1, fun u hu => r4 u ((hev.trans c3).holds hu)⟩, fun e => ?_⟩, hev.trans c3, c6, c5, c3.nVars⟩
      rw [c4, hok2] at e; cases e
    cases b with
    | true =>
      obtain ⟨i1, i2, i3, i4, i5, i6, i7⟩ := hso
      rw [if_pos rfl] at he
      injection he with he
      injection he with e1 e2
      obtain ⟨z1, z2, z3, z4, z5⟩ := run' { s1 with model := (List.range s1.nVars).map fun v => s1.val v == some true } (i1.pi.irrel rfl)
        ⟨i1.sx.un, i1.sx.hr, i1.sx.a1, i1.sx.a2⟩ (ev0.trans ⟨i2.nVars, i2.clauses, i2.stateId, i2.valid, i2.old, i2.lr, i2.units, i2.ams, i2.am⟩) (i3.trans hok) i5
      rw [← e2]
      refine ⟨z1, z2, fun b e => ?_⟩
      rw [← e1] at e
      have hb : b = true := by cases finish <;> cases e; rfl
      subst hb
      refine ⟨by rw [z3, z5]; simp, fun u hu => ?_⟩
      rw [z3, z5] at hu
      have hu' : ∀ v < s1.nVars, u v = (s1.val v == some true) := by
        intro v hv
        have := hu v hv
        rw [List.getElem?_map, List.getElem?_range hv] at this
        simpa using this.symm
      refine ⟨r4 u ?_, fun p hp => ?_⟩
      · apply (ev0.trans i2).holds
        refine ⟨fun c hc => sat_model i1.pi i5 i7 hu' (List.mem_append_left _ hc), fun l hl => lv_of_trail i1.pi.t hu' (i1.sx.un l hl).1, fun c hc k hk => sat_am i1.pi i5 i7 hu' hc hk⟩
      · obtain ⟨i, hi, hip⟩ := List.getElem_of_mem hp
        exact lv_of_trail i1.pi.t hu' (i1.sx.a2 i p (by omega) (by rw [List.getElem?_eq_getElem hi, hip])).1
    | false =>
      obtain ⟨i1, i2, i3⟩ := hso
      simp only [Bool.false_eq_true, ↓reduceIte, not_false_eq_true, true_and] at he
      injection he with he
      injection he with e1 e2
      rw [← e2]
      rcases i3 with ⟨j1, j2, j3, c, j4⟩ | ⟨j1, j2, j3, j4, j5⟩
      · have hcn : s1.conflict.isEmpty = true := by rw [j1]; rfl
        rw [if_pos hcn]
        have hcan : cancelUntil { s1 with ok := false } 0 = { s1 with ok := false } := by
          unfold cancelUntil
          rw [if_neg]
          show ¬ 0 < s1.dl
          omega
        rw [hcan]
        have hun := j4.unsat j2
        refine ⟨⟨j2, ⟨_, j4.pi.irrel rfl⟩, j3.hr, fun e => (by cases e), fun _ => hun⟩, ev0.trans ⟨i1.nVars, i1.clauses, i1.stateId, i1.valid, i1.old, i1.lr, i1.units, i1.ams, i1.am⟩, fun b e => ?_⟩
        rw [← e1] at e
        have hb : b = false := by cases finish <;> cases e; rfl
        subst hb
        refine ⟨fun x hx => ?_, fun u hu => absurd hu (hun u)⟩
        have hx : x ∈ s1.conflict := hx
        rw [j1] at hx; cases hx
      · have hcn : ¬ s1.conflict.isEmpty = true := by simpa using j3
        rw [if_neg hcn]
        obtain ⟨z1, z2, z3, z4, z5⟩ := run' s1 j1.pi j1.sx (ev0.trans i1) (i2.trans hok) j2
        refine ⟨z1, z2, fun b e => ?_⟩
        rw [← e1] at e
        have hb : b = false := by cases finish <;> cases e; rfl
        subst hb
        refine ⟨?_, ?_⟩
        · rw [z4]; exact j4
        · rw [z4]; exact j5

end Verif.Sat
