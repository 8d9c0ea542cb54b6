import Verif.MaxSat.HistoryLemmas

/-! # Call histories of the MaxSAT solver (C45): invariant -/

namespace Verif.MaxAlg

open Verif
open Verif.MaxSat (litVal clauseVal costC St Op step run hards softs OpOk Bd SPos run_bd run_ext run_loaded)
variable {α : Type} [DecidableEq α]

/-! ## loading -/

theorem take_last {l : List Nat} (hl : l.Pairwise (· < ·)) {i : Nat} (hi : i ∈ l) :
    ∃ j, l.reverse.findIdx? (fun k => decide (k = i)) = some j ∧ l.take (l.length - 1 - j + 1) = l.filter fun k => decide (k ≤ i) := by
  obtain ⟨a, b, rfl⟩ := List.append_of_mem hi
  rw [List.pairwise_append] at hl
  obtain ⟨_, h2, h3⟩ := hl
  rw [List.pairwise_cons] at h2
  have ha : ∀ k ∈ a, k < i := fun k hk => h3 k hk i List.mem_cons_self
  have hb : ∀ k ∈ b, i < k := h2.1
  refine ⟨b.length, ?_, ?_⟩
  · rw [List.reverse_append, List.reverse_cons, List.append_assoc, List.findIdx?_append]
    have : b.reverse.findIdx? (fun k => decide (k = i)) = none := by
      rw [List.findIdx?_eq_none_iff]
      intro k hk
      have := hb k (List.mem_reverse.1 hk)
      rw [decide_eq_false_iff_not]; omega
    rw [this]
    simp [List.findIdx?_cons]
  · have e : (a ++ i :: b).length - 1 - b.length + 1 = a.length + 1 := by simp only [List.length_append, List.length_cons]; omega
    have f1 : a.filter (fun k => decide (k ≤ i)) = a := List.filter_eq_self.2 fun k hk => by have := ha k hk; rw [decide_eq_true_eq]; omega
    have f2 : b.filter (fun k => decide (k ≤ i)) = [] := List.filter_eq_nil_iff.2 fun k hk => by have := hb k hk; rw [decide_eq_true_eq]; omega
    rw [e, List.filter_append, f1, List.filter_cons_of_pos (by simp), f2, List.take_append, List.take_of_length_le (by omega)]
    simp

/-- the state `saveState` returns for what has been loaded -/
def SState.of (id : Nat) (a : St α) : SState := ⟨id, a.nbVars, a.hard.length, a.soft.length, a.ubCost, a.currentWeight, a.soft.map (·.2)⟩

theorem save_eq (m : Alg α) : m.save = (SState.of m.stateId m.st, { m with stateId := m.stateId + 1, valid := m.valid ++ [m.stateId] }) := by
  unfold Alg.save SState.of Alg.st
  simp [List.map_map, Function.comp_def]

theorem load_none {m : Alg α} {s : SState} (h : s.id ∉ m.valid) : m.load s = none := by
  unfold Alg.load
  have : m.valid.reverse.findIdx? (fun k => decide (k = s.id)) = none := by
    rw [List.findIdx?_eq_none_iff]
    intro k hk
    rw [decide_eq_false_iff_not]
    rintro rfl
    exact h (List.mem_reverse.1 hk)
  rw [this]

/-- no traces of a search -/
structure NoTrace (m : Alg α) : Prop where
  lb : m.lbCost = 0
  order : m.orderW = []
  cnt : m.nbCores = 0 ∧ m.nbSym = 0 ∧ m.sumSize = 0 ∧ m.nbSat = 0
  rel : ∀ c ∈ m.soft, c.rel = [] ∧ c.asm = none

theorem load_some {m : Alg α} {id : Nat} {a : St α} (hv : m.valid.Pairwise (· < ·)) (hid : id ∈ m.valid) (hb : Bd a)
    (hh : ∃ x, m.hard = a.hard ++ x) (hs : ∃ x, m.soft.map (·.cl) = a.soft.map (·.1) ++ x)
    (hi : ∃ x, m.idx = a.idx ++ x ∧ ∀ e ∈ x, a.nbVars ≤ e.2 ∧ e.2 < m.nbVars) :
    ∃ m', m.load (SState.of id a) = some m' ∧ m'.st = a ∧ NoTrace m' ∧ m'.valid = m.valid.filter (fun k => decide (k ≤ id)) ∧ m'.stateId = m.stateId := by
  obtain ⟨j, h1, h2⟩ := take_last hv hid
  obtain ⟨x, hx⟩ := hh
  obtain ⟨y, hy⟩ := hs
  obtain ⟨z, hz, hz'⟩ := hi
  unfold Alg.load
  have h1' : (m.valid.reverse.findIdx? fun k => decide (k = (SState.of id a).id)) = some j := h1
  rw [h1']
  dsimp only [SState.of]
  refine ⟨_, rfl, ?_, ⟨rfl, rfl, ⟨rfl, rfl, rfl, rfl⟩, fun c hc => ?_⟩, h2, rfl⟩
  · have e1 : m.hard.take a.hard.length = a.hard := by rw [hx]; simp
    have e2 : m.idx.filter (fun e => !(decide (a.nbVars ≤ e.2) && decide (e.2 < m.nbVars))) = a.idx := by
      rw [hz, List.filter_append]
      have f1 : a.idx.filter (fun e => !(decide (a.nbVars ≤ e.2) && decide (e.2 < m.nbVars))) = a.idx := List.filter_eq_self.2 fun e he => by
        have := hb.idx e he
        rw [decide_eq_false (by omega)]; rfl
      have f2 : z.filter (fun e => !(decide (a.nbVars ≤ e.2) && decide (e.2 < m.nbVars))) = [] := List.filter_eq_nil_iff.2 fun e he => by
        have := hz' e he
        rw [decide_eq_true this.1, decide_eq_true this.2]; simp
      rw [f1, f2, List.append_nil]
    have e3 : (List.zipWith (fun (c : Sc) w => (⟨c.cl, w, [], none⟩ : Sc)) (m.soft.take a.soft.length) (a.soft.map (·.2))).map (fun c => (c.cl, c.w)) = a.soft := by
      have f1 : (m.soft.take a.soft.length).map (·.cl) = a.soft.map (·.1) := by rw [List.map_take, hy]; simp
      rw [List.map_zipWith]
      have f2 : ∀ (l : List Sc) (ws : List Nat), List.zipWith (fun (c : Sc) (w : Nat) => (c.cl, w)) l ws = List.zip (l.map (·.cl)) ws := by
        intro l ws; rw [List.zip, List.zipWith_map_left]
      rw [f2, f1]
      generalize a.soft = l
      induction l with
      | nil => rfl
      | cons e l ih => rw [List.map_cons, List.map_cons, List.zip_cons_cons, ih]
    have e4 : ∀ i h f, i = a.idx → h = a.hard → f = a.soft → (⟨a.nbVars, i, h, f, a.ubCost, a.currentWeight⟩ : St α) = a := by
      rintro _ _ _ rfl rfl rfl; rfl
    exact e4 _ _ _ e2 e1 e3
  · obtain ⟨i, hi1, hi2⟩ := List.mem_iff_getElem.1 hc
    rw [List.getElem_zipWith] at hi2
    rw [← hi2]; exact ⟨rfl, rfl⟩

theorem add1_st {ord : List (Lit α) → List (Lit α)} {m : Alg α} {op : Op α} (h : MaxSat.Ext m.st (step ord m.st op)) : (m.add1 ord op).st = step ord m.st op := by
  obtain ⟨x, hx⟩ := h.soft
  have hl : m.st.soft = m.soft.map fun c => (c.cl, c.w) := rfl
  have e : (m.add1 ord op).soft.map (fun c => (c.cl, c.w)) = (step ord m.st op).soft := by
    show (m.soft ++ ((step ord m.st op).soft.drop m.soft.length).map fun c => (⟨c.1, c.2, [], none⟩ : Sc)).map (fun c => (c.cl, c.w)) = _
    rw [hx, hl, List.drop_append_of_le_length (by simp), List.drop_of_length_le (by simp), List.map_append, List.nil_append, List.map_map]
    simp [Function.comp_def]
  unfold Alg.st
  rw [e]
  rfl

theorem add1_noTrace {ord : List (Lit α) → List (Lit α)} {m : Alg α} (op : Op α) (h : NoTrace m) : NoTrace (m.add1 ord op) := by
  refine ⟨h.lb, h.order, h.cnt, fun c hc => ?_⟩
  rcases List.mem_append.1 hc with hc | hc
  · exact h.rel c hc
  · obtain ⟨d, _, rfl⟩ := List.mem_map.1 hc
    exact ⟨rfl, rfl⟩

theorem add_st {ord : List (Lit α) → List (Lit α)} (ho : ∀ l, (ord l).Perm l) (ops : List (Op α)) : ∀ {m : Alg α} {cur : List (Op α)}, m.st = run ord cur → NoTrace m → (∀ op ∈ cur ++ ops, OpOk op) →
    (ops.foldl (Alg.add1 ord) m).st = run ord (cur ++ ops) ∧ NoTrace (ops.foldl (Alg.add1 ord) m) ∧ (ops.foldl (Alg.add1 ord) m).valid = m.valid ∧ (ops.foldl (Alg.add1 ord) m).stateId = m.stateId := by
  induction ops with
  | nil => intro m cur h hn _; rw [List.append_nil]; exact ⟨h, hn, rfl, rfl⟩
  | cons op ops ih =>
    intro m cur h hn hok
    have hr : run ord (cur ++ [op]) = step ord m.st op := by rw [h]; unfold run; rw [List.foldl_append]; rfl
    have hx : MaxSat.Ext m.st (step ord m.st op) := by
      rw [← hr, h]
      exact run_ext ho (List.prefix_append _ _) fun o ho' => hok o (by
        rcases List.mem_append.1 ho' with h | h
        · exact List.mem_append_left _ h
        · exact List.mem_append_right _ (by rw [List.mem_singleton.1 h]; exact List.mem_cons_self))
    have := ih (m := m.add1 ord op) (cur := cur ++ [op]) (by rw [add1_st hx, hr]) (add1_noTrace op hn) (by simpa using hok)
    rw [List.append_assoc] at this
    exact this

/-! ## the invariant -/

structure Inv (ord : List (Lit α) → List (Lit α)) (dom : List Nat → Prop) (s : Slvr α) (p : Spec α) : Prop where
  st : s.alg.st = run ord p.cur
  noTrace : NoTrace s.alg
  ops : ∀ op ∈ p.cur, OpOk op
  n : s.states.length = p.n
  inc : s.alg.valid.Pairwise (· < ·)
  lt : ∀ i ∈ s.alg.valid, i < s.alg.stateId
  sinc : s.states.Pairwise (fun a b => a.id < b.id)
  slt : ∀ x ∈ s.states, x.id < s.alg.stateId
  saved : ∀ k ops, (k, ops) ∈ p.saved → (∃ id, s.states[k]? = some (SState.of id (run ord ops))) ∧ ops <+: p.cur
  keys : p.saved.Pairwise fun a b => a.1 < b.1 ∧ a.2 <+: b.2
  mem : ∀ k x, s.states[k]? = some x → (x.id ∈ s.alg.valid ↔ ∃ ops, (k, ops) ∈ p.saved)
  res : s.ok = true → p.stale = false → dom (s.alg.soft.map (·.w)) → RightC s.alg.prob False s.res

theorem Alg.prob_eq {m m' : Alg α} (h : m.st = m'.st) : m.prob = m'.prob := by
  unfold Alg.st at h
  simp only [St.mk.injEq] at h
  unfold Alg.prob
  rw [h.1, h.2.2.1, h.2.2.2.1]

theorem Alg.w_eq {m m' : Alg α} (h : m.st = m'.st) : m.soft.map (·.w) = m'.soft.map (·.w) := by
  have e : ∀ x : Alg α, x.soft.map (·.w) = x.st.soft.map (·.2) := fun x => by simp [Alg.st, List.map_map, Function.comp_def]
  rw [e, e, h]

variable {ord : List (Lit α) → List (Lit α)} {dom : List Nat → Prop} {s : Slvr α} {p : Spec α}

theorem Inv.init : Inv ord dom ({} : Slvr α) {} := by
  refine ⟨rfl, ⟨rfl, rfl, ⟨rfl, rfl, rfl, rfl⟩, by simp⟩, by simp, rfl, List.Pairwise.nil, by simp, List.Pairwise.nil, by simp, by simp, List.Pairwise.nil, by simp, fun h => by cases h⟩

theorem Inv.add (ho : ∀ l, (ord l).Perm l) (h : Inv ord dom s p) {ops : List (Op α)} (hok : ∀ op ∈ ops, OpOk op) :
    Inv ord dom { s with alg := ops.foldl (Alg.add1 ord) s.alg, ok := false } { p with cur := p.cur ++ ops, stale := false } := by
  have hops : ∀ op ∈ p.cur ++ ops, OpOk op := fun o ho => (List.mem_append.1 ho).elim (h.ops o) (hok o)
  obtain ⟨a1, a2, a3, a4⟩ := add_st ho ops h.st h.noTrace hops
  refine ⟨a1, a2, hops, h.n, ?_, ?_, h.sinc, ?_, fun k o hk => ?_, h.keys, ?_, fun e => by cases e⟩
  · dsimp only; rw [a3]; exact h.inc
  · dsimp only; rw [a3, a4]; exact h.lt
  · dsimp only; rw [a4]; exact h.slt
  · obtain ⟨b1, b2⟩ := h.saved k o hk
    exact ⟨b1, b2.trans (List.prefix_append _ _)⟩
  · dsimp only; rw [a3]; exact h.mem

theorem Inv.save (h : Inv ord dom s p) : Inv ord dom { s with alg := s.alg.save.2, states := s.states ++ [s.alg.save.1] } { p with saved := p.saved ++ [(p.n, p.cur)], n := p.n + 1 } := by
  have hl : ∀ k ops, (k, ops) ∈ p.saved → k < p.n := fun k ops hk => by
    obtain ⟨⟨id, hid⟩, _⟩ := h.saved k ops hk
    rw [← h.n]
    exact (List.getElem?_eq_some_iff.1 hid).1
  rw [save_eq]
  refine ⟨h.st, ⟨h.noTrace.lb, h.noTrace.order, h.noTrace.cnt, h.noTrace.rel⟩, h.ops, by simp [h.n], ?_, ?_, ?_, ?_, ?_, ?_, ?_, h.res⟩
  · refine List.pairwise_append.2 ⟨h.inc, List.pairwise_singleton _ _, fun a ha b hb => ?_⟩
    rw [List.mem_singleton.1 hb]; exact h.lt a ha
  · intro i hi
    rcases List.mem_append.1 hi with hi | hi
    · exact Nat.lt_succ_of_lt (h.lt i hi)
    · rw [List.mem_singleton.1 hi]; exact Nat.lt_succ_self _
  · refine List.pairwise_append.2 ⟨h.sinc, List.pairwise_singleton _ _, fun a ha b hb => ?_⟩
    rw [List.mem_singleton.1 hb]; exact h.slt a ha
  · intro x hx
    rcases List.mem_append.1 hx with hx | hx
    · exact Nat.lt_succ_of_lt (h.slt x hx)
    · rw [List.mem_singleton.1 hx]; exact Nat.lt_succ_self _
  · intro k ops hk
    rcases List.mem_append.1 hk with hk | hk
    · obtain ⟨⟨id, hid⟩, b⟩ := h.saved k ops hk
      refine ⟨⟨id, ?_⟩, b⟩
      rw [List.getElem?_append_left (by rw [h.n]; exact hl k ops hk)]
      exact hid
    · cases List.mem_singleton.1 hk
      refine ⟨⟨s.alg.stateId, ?_⟩, List.prefix_refl _⟩
      rw [← h.n, ← h.st]; simp
  · refine List.pairwise_append.2 ⟨h.keys, List.pairwise_singleton _ _, fun a ha b hb => ?_⟩
    rw [List.mem_singleton.1 hb]
    exact ⟨hl a.1 a.2 ha, (h.saved a.1 a.2 ha).2⟩
  · intro k x hx
    dsimp only at hx ⊢
    by_cases hk : k < s.states.length
    · rw [List.getElem?_append_left hk] at hx
      have hxs : x.id < s.alg.stateId := h.slt x (List.mem_of_getElem? hx)
      have := h.mem k x hx
      constructor
      · intro hm
        rcases List.mem_append.1 hm with hm | hm
        · obtain ⟨ops, ho⟩ := this.1 hm
          exact ⟨ops, List.mem_append_left _ ho⟩
        · rw [List.mem_singleton.1 hm] at hxs; omega
      · rintro ⟨ops, ho⟩
        rcases List.mem_append.1 ho with ho | ho
        · exact List.mem_append_left _ (this.2 ⟨ops, ho⟩)
        · cases List.mem_singleton.1 ho
          rw [h.n] at hk; omega
    · rw [List.getElem?_append_right (by omega)] at hx
      cases hd : k - s.states.length with
      | zero =>
        rw [hd] at hx
        simp only [List.getElem?_cons_zero, Option.some.injEq] at hx
        subst hx
        have hkn : k = p.n := by rw [← h.n]; omega
        exact ⟨fun _ => ⟨p.cur, by simp [hkn]⟩, fun _ => by simp [SState.of]⟩
      | succ j => rw [hd] at hx; simp at hx

theorem lookup_iff {l : List (Nat × List (Op α))} (hk : l.Pairwise fun a b => a.1 < b.1 ∧ a.2 <+: b.2) {k : Nat} {o : List (Op α)} : l.lookup k = some o ↔ (k, o) ∈ l := by
  induction l with
  | nil => simp
  | cons e l ih =>
    obtain ⟨j, x⟩ := e
    rw [List.pairwise_cons] at hk
    rw [List.lookup_cons, List.mem_cons]
    by_cases he : k = j
    · subst he
      simp only [beq_self_eq_true]
      constructor
      · intro h; cases h; exact Or.inl rfl
      · rintro (h | h)
        · cases h; rfl
        · have := (hk.1 _ h).1; dsimp only at this; omega
    · rw [beq_false_of_ne he]
      dsimp only
      rw [ih hk.2]
      constructor
      · exact Or.inr
      · rintro (h | h)
        · cases h; exact absurd rfl he
        · exact h

theorem Inv.loadErr (h : Inv ord dom s p) : Inv ord dom { s with ok := false } { p with stale := false } :=
  ⟨h.st, h.noTrace, h.ops, h.n, h.inc, h.lt, h.sinc, h.slt, h.saved, h.keys, h.mem, fun e => by cases e⟩

theorem Inv.loadOk (ho : ∀ l, (ord l).Perm l) (h : Inv ord dom s p) {k : Nat} {o : List (Op α)} (hk : (k, o) ∈ p.saved) {x : SState} (hx : s.states[k]? = some x) :
    Inv ord dom { s with alg := (s.alg.load x).getD s.alg, ok := false } { p with cur := o, saved := p.saved.filter (fun e => decide (e.1 ≤ k)), stale := false } := by
  obtain ⟨⟨id, hid⟩, hp⟩ := h.saved k o hk
  rw [hid] at hx
  cases hx
  have hoo : ∀ op ∈ o, OpOk op := fun op hop => h.ops op (hp.subset hop)
  have hv : id ∈ s.alg.valid := (h.mem k _ hid).2 ⟨o, hk⟩
  have hext := run_ext ho hp h.ops
  have hbc := (run_bd ho h.ops).1
  obtain ⟨m', e1, e2, e3, e4, e5⟩ := load_some (m := s.alg) (id := id) (a := run ord o) h.inc hv (run_bd ho hoo).1
    (by rw [← h.st] at hext; exact hext.hard)
    (by
      obtain ⟨y, hy⟩ := hext.soft
      refine ⟨y.map (·.1), ?_⟩
      rw [← List.map_append, ← hy, ← h.st]
      simp [Alg.st, List.map_map, Function.comp_def])
    (by
      obtain ⟨y, hy, hy'⟩ := hext.idx
      have e : s.alg.idx = (run ord p.cur).idx := by rw [← h.st]; rfl
      have e' : s.alg.nbVars = (run ord p.cur).nbVars := by rw [← h.st]; rfl
      refine ⟨y, e.trans hy, fun z hz => ⟨hy' z hz, ?_⟩⟩
      rw [e']
      exact hbc.idx z (by rw [hy]; exact List.mem_append_right _ hz))
  rw [e1]
  refine ⟨e2, e3, hoo, h.n, ?_, ?_, h.sinc, ?_, ?_, h.keys.filter _, ?_, fun e => by cases e⟩
  · show m'.valid.Pairwise _
    rw [e4]; exact h.inc.filter _
  · show ∀ i ∈ m'.valid, i < m'.stateId
    rw [e4, e5]; exact fun i hi => h.lt i (List.mem_filter.1 hi).1
  · show ∀ x ∈ s.states, x.id < m'.stateId
    rw [e5]; exact h.slt
  · intro j oj hj
    obtain ⟨hj1, hj2⟩ := List.mem_filter.1 hj
    refine ⟨(h.saved j oj hj1).1, ?_⟩
    rw [decide_eq_true_eq] at hj2
    dsimp only at hj2 ⊢
    rcases Nat.lt_or_eq_of_le hj2 with hlt | rfl
    · have : ∀ {l : List (Nat × List (Op α))}, l.Pairwise (fun a b => a.1 < b.1 ∧ a.2 <+: b.2) → (j, oj) ∈ l → (k, o) ∈ l → oj <+: o := by
        intro l hl h1 h2
        induction l with
        | nil => cases h1
        | cons e l ih =>
          rw [List.pairwise_cons] at hl
          rcases List.mem_cons.1 h1 with g1 | g1
          · rcases List.mem_cons.1 h2 with g2 | g2
            · rw [← g2] at g1; cases g1; omega
            · rw [← g1] at hl; exact (hl.1 _ g2).2
          · rcases List.mem_cons.1 h2 with g2 | g2
            · rw [← g2] at hl; have := (hl.1 _ g1).1; dsimp only at this; omega
            · exact ih hl.2 g1 g2
      exact this h.keys hj1 hk
    · have h1 := (lookup_iff h.keys).2 hj1
      rw [(lookup_iff h.keys).2 hk] at h1
      cases h1
      exact List.prefix_refl _
  · intro j y hy
    show y.id ∈ m'.valid ↔ _
    rw [e4, List.mem_filter, h.mem j y hy, decide_eq_true_eq]
    have hle : y.id ≤ id ↔ j ≤ k := by
      obtain ⟨hj1, hj2⟩ := List.getElem?_eq_some_iff.1 hy
      obtain ⟨hk1, hk2⟩ := List.getElem?_eq_some_iff.1 hid
      have hpw := List.pairwise_iff_getElem.1 h.sinc
      constructor
      · intro hle
        refine Classical.byContradiction fun hn => ?_
        have := hpw k j hk1 hj1 (by omega)
        rw [hj2, hk2] at this
        simp only [SState.of] at this
        omega
      · intro hle
        rcases Nat.lt_or_eq_of_le hle with hlt | rfl
        · have := hpw j k hj1 hk1 hlt
          rw [hj2, hk2] at this
          simp only [SState.of] at this
          omega
        · rw [hj2] at hk2; rw [hk2]; simp [SState.of]
    rw [hle]
    constructor
    · rintro ⟨⟨ops, ho1⟩, ho2⟩; exact ⟨ops, List.mem_filter.2 ⟨ho1, by simpa using ho2⟩⟩
    · rintro ⟨ops, ho1⟩
      obtain ⟨a, b⟩ := List.mem_filter.1 ho1
      exact ⟨⟨ops, a⟩, by simpa using b⟩

/-- what a search begins with -/
theorem Inv.clean (ho : ∀ l, (ord l).Perm l) (h : Inv ord dom s p) :
    Alg.Clean s.alg.save.2 ∧ s.alg.save.2.prob.WF ∧ (∀ x ∈ s.alg.save.2.soft, 1 ≤ x.w ∧ x.cl ≠ []) := by
  have hl := run_loaded ho p.cur fun o ho => (h.ops o ho).1
  obtain ⟨hb, hp⟩ := run_bd ho h.ops
  have hw := MaxSat.C31_weight ord p.cur
  have hsoft : (softs p.cur).map (·.2) = s.alg.soft.map (·.w) := by
    have h1 := congrArg (List.map (·.2)) (hl.soft (fun _ => false) (fun _ => false) fun x i hx => rfl)
    rw [List.map_map, List.map_map] at h1
    rw [← h.st] at h1
    simp only [Alg.st, List.map_map, Function.comp_def] at h1
    rw [← h1]
  have hmem : ∀ {w : Nat}, (∃ c ∈ s.alg.soft, c.w = w) ↔ ∃ f ∈ softs p.cur, f.2 = w := fun {w} => by
    have e : w ∈ (softs p.cur).map (·.2) ↔ w ∈ s.alg.soft.map (·.w) := by rw [hsoft]
    rw [List.mem_map, List.mem_map] at e
    exact e.symm
  rw [save_eq]
  refine ⟨⟨h.noTrace.lb, h.noTrace.order, h.noTrace.cnt, h.noTrace.rel, ?_, fun c hc => ?_, ?_⟩, ⟨?_, ?_⟩, fun x hx => ?_⟩
  · have : s.alg.ubCost = (run ord p.cur).ubCost := by rw [← h.st]; rfl
    show s.alg.ubCost = (s.alg.soft.map (·.w)).sum
    rw [this, hl.ub, hsoft]
  · obtain ⟨f, hf, e⟩ := hmem.1 ⟨c, hc, rfl⟩
    have : s.alg.curW = (run ord p.cur).currentWeight := by rw [← h.st]; rfl
    show c.w ≤ s.alg.curW
    rw [this, ← e]; exact hw.1 f hf
  · have e : s.alg.curW = (run ord p.cur).currentWeight := by rw [← h.st]; rfl
    show s.alg.curW = 1 ∨ ∃ c ∈ s.alg.soft, s.alg.curW = c.w
    rw [e]
    rcases hw.2 with h1 | ⟨f, hf, h1⟩
    · exact Or.inl h1
    · obtain ⟨c, hc, hc'⟩ := hmem.2 ⟨f, hf, rfl⟩
      exact Or.inr ⟨c, hc, h1.trans hc'.symm⟩
  · have hb' := hb.hard
    rw [← h.st] at hb'; exact hb'
  · have hb' := hb.soft
    rw [← h.st] at hb'; exact hb'
  · rw [← h.st] at hp
    exact hp (x.cl, x.w) (List.mem_map.2 ⟨x, hx, rfl⟩)

theorem RightC.mono {P : Prob} {a b : Prop} (h : a → b) {r : Res} (hr : RightC P a r) : RightC P b r := by
  cases r with
  | cancel => exact h hr
  | unsat => exact hr
  | opt c u => exact hr

/-- one call of `innerSearch` whose finish event is resumed -/
theorem Inv.inner {A : Srch α} (hA : A.Ok dom) (ho : ∀ l, (ord l).Perm l) (h : Inv ord dom s p) {k : Nat} {c : Call} (hc : c.finish = true) {m : Alg α} {r : Res} (hi : inner A k c s.alg = some (m, r)) :
    m.st = s.alg.st ∧ NoTrace m ∧ m.valid.Pairwise (· < ·) ∧ s.alg.stateId ≤ m.stateId ∧ (∀ i ∈ m.valid, i < m.stateId) ∧ (∀ i, i < s.alg.stateId → (i ∈ m.valid ↔ i ∈ s.alg.valid)) ∧
    (c.nop = true → c.start = true → dom (s.alg.soft.map (·.w)) → RightC s.alg.prob False r) := by
  unfold MaxAlg.inner at hi
  by_cases hs : c.start = false
  · rw [if_pos hs] at hi
    cases hi
    exact ⟨rfl, h.noTrace, h.inc, Nat.le_refl _, h.lt, fun _ _ => Iff.rfl, fun _ h => by rw [hs] at h; cases h⟩
  · rw [if_neg hs] at hi
    dsimp only at hi
    rw [hc] at hi
    simp only [Bool.true_eq_false, if_false] at hi
    cases hq : A.search k c s.alg.save.2 with
    | none => rw [hq] at hi; cases hi
    | some mr =>
      obtain ⟨m1, r1⟩ := mr
      rw [hq] at hi
      simp only [Option.map_some, Option.some.injEq, Prod.mk.injEq] at hi
      obtain ⟨hm, hr⟩ := hi
      subst hr
      have hf := hA.frame _ _ _ _ _ hq
      rw [save_eq] at hf hm
      obtain ⟨f1, f2, f3, f4, f5, f6⟩ := hf
      dsimp only at f1 f2 f3 f4 f5 f6 hm
      have hb := (run_bd ho h.ops).1
      rw [← h.st] at hb
      have hpw : (s.alg.valid ++ [s.alg.stateId]).Pairwise (· < ·) := List.pairwise_append.2 ⟨h.inc, List.pairwise_singleton _ _, fun a ha b hb => by
        rw [List.mem_singleton.1 hb]; exact h.lt a ha⟩
      obtain ⟨m', e1, e2, e3, e4, e5⟩ := load_some (m := m1) (id := s.alg.stateId) (a := s.alg.st) (by rw [f5]; exact hpw) (by rw [f5]; simp) hb f1
        (by
          obtain ⟨x, hx⟩ := f2
          exact ⟨x, hx.trans (by simp [Alg.st, List.map_map, Function.comp_def])⟩)
        ⟨[], by rw [f4]; simp [Alg.st], by simp⟩
      rw [e1] at hm
      simp only [Option.getD_some] at hm
      subst hm
      refine ⟨e2, e3, ?_, by rw [e5, f6]; omega, ?_, ?_, ?_⟩
      · rw [e4, f5]; exact hpw.filter _
      · rw [e4, e5, f5, f6]
        intro i hi
        have := (List.mem_filter.1 hi).2
        rw [decide_eq_true_eq] at this
        omega
      · intro i hi
        rw [e4, f5, List.mem_filter, List.mem_append, List.mem_singleton, decide_eq_true_eq]
        constructor
        · rintro ⟨h1 | h1, _⟩
          · exact h1
          · omega
        · exact fun h1 => ⟨Or.inl h1, by omega⟩
      · intro hn _ hd
        obtain ⟨g1, g2, g3⟩ := h.clean ho
        have hw : s.alg.save.2.soft.map (·.w) = s.alg.soft.map (·.w) := by rw [save_eq]
        have hpr : s.alg.save.2.prob = s.alg.prob := by rw [save_eq]; rfl
        obtain ⟨_, m2, r2, g4, g5⟩ := hA.right k c s.alg.save.2 g1 g2 g3 (by rw [hw]; exact hd)
        rw [hq] at g4
        cases g4
        rw [hpr] at g5
        exact g5.mono fun h => by rw [hn] at h; cases h

theorem Inv.solve {A : Srch α} (hA : A.Ok dom) (ho : ∀ l, (ord l).Perm l) (h : Inv ord dom s p) {c : Call} (hc : c.finish = true) {s' : Slvr α} {r : Res} (hs : s.solve A c = some (s', r)) :
    Inv ord dom s' (p.step (.solve c)) := by
  unfold Slvr.solve at hs
  by_cases hk : s.ok = true
  · rw [if_pos hk] at hs
    cases hs
    refine ⟨h.st, h.noTrace, h.ops, h.n, h.inc, h.lt, h.sinc, h.slt, h.saved, h.keys, h.mem, fun e1 e2 => h.res e1 ?_⟩
    simp only [Spec.step, Bool.or_eq_false_iff] at e2
    exact e2.1
  · rw [if_neg hk] at hs
    split at hs
    · cases hs
    · rw [hA.pre] at hs
      cases hi : MaxAlg.inner A s.calls c s.alg with
      | none => rw [hi] at hs; cases hs
      | some mr =>
        obtain ⟨m, r1⟩ := mr
        rw [hi] at hs
        simp only [Option.map_some, Option.some.injEq, Prod.mk.injEq] at hs
        obtain ⟨rfl, rfl⟩ := hs
        obtain ⟨a1, a2, a3, a4, a5, a6, a7⟩ := h.inner hA ho hc hi
        refine ⟨a1.trans h.st, a2, h.ops, h.n, a3, a5, h.sinc, fun x hx => Nat.lt_of_lt_of_le (h.slt x hx) a4, h.saved, h.keys, fun k x hx => ?_, fun _ e2 hd => ?_⟩
        · exact (a6 _ (h.slt x (List.mem_of_getElem? hx))).trans (h.mem k x hx)
        · simp only [Spec.step, Bool.or_eq_false_iff, Bool.not_eq_false', Bool.and_eq_true] at e2
          rw [Alg.prob_eq a1]
          exact a7 e2.2.1.1 e2.2.1.2 (by rw [← Alg.w_eq a1]; exact hd)

theorem Inv.step {A : Srch α} (hA : A.Ok dom) (ho : ∀ l, (ord l).Perm l) (h : Inv ord dom s p) {o : HOp α} (hok : o.Ok) (hfin : ∀ c, o = .solve c → c.finish = true) {s' : Slvr α} (hs : s.step ord A o = some s') :
    Inv ord dom s' (p.step o) := by
  cases o with
  | add ops => cases hs; exact h.add ho hok
  | save => cases hs; exact h.save
  | solve c =>
    unfold Slvr.step at hs
    dsimp only at hs
    cases hq : s.solve A c with
    | none => rw [hq] at hs; cases hs
    | some sr =>
      obtain ⟨s1, r⟩ := sr
      rw [hq] at hs
      cases hs
      exact h.solve hA ho (hfin c rfl) hq
  | load k =>
    unfold Slvr.step at hs
    unfold Spec.step
    dsimp only at hs ⊢
    cases hx : s.states[k]? with
    | none =>
      rw [hx] at hs
      cases hs
      rw [if_neg (by rw [← h.n]; have := List.getElem?_eq_none_iff.1 hx; omega)]
      exact h
    | some x =>
      rw [hx] at hs
      cases hs
      rw [if_pos (by rw [← h.n]; exact (List.getElem?_eq_some_iff.1 hx).1)]
      cases hl : p.saved.lookup k with
      | none =>
        have : x.id ∉ s.alg.valid := fun hm => by
          obtain ⟨ops, hops⟩ := (h.mem k x hx).1 hm
          rw [(lookup_iff h.keys).2 hops] at hl
          cases hl
        rw [load_none this]
        exact h.loadErr
      | some o => exact h.loadOk ho ((lookup_iff h.keys).1 hl) hx

theorem history_inv {A : Srch α} (hA : A.Ok dom) (ho : ∀ l, (ord l).Perm l) {l : List (HOp α)} (hok : ∀ o ∈ l, o.Ok) (hfin : ∀ c, HOp.solve c ∈ l → c.finish = true) {s : Slvr α}
    (hs : history ord A l = some s) : Inv ord dom s (spec l) := by
  have key : ∀ (l : List (HOp α)) (s0 : Slvr α) (p0 : Spec α), (∀ o ∈ l, o.Ok) → (∀ c, HOp.solve c ∈ l → c.finish = true) → Inv ord dom s0 p0 → l.foldlM (Slvr.step ord A) s0 = some s →
      Inv ord dom s (l.foldl Spec.step p0) := by
    intro l
    induction l with
    | nil => intro s0 p0 _ _ h0 h; cases h; exact h0
    | cons o l ih =>
      intro s0 p0 h1 h2 h0 h
      rw [List.foldlM_cons] at h
      cases hq : s0.step ord A o with
      | none => rw [hq] at h; cases h
      | some s1 =>
        rw [hq] at h
        exact ih s1 _ (fun o ho => h1 o (List.mem_cons_of_mem _ ho)) (fun c hc => h2 c (List.mem_cons_of_mem _ hc))
          (h0.step hA ho (h1 o List.mem_cons_self) (fun c hc => h2 c (by rw [hc]; exact List.mem_cons_self)) hq) h
  exact key l {} {} hok hfin Inv.init hs

end Verif.MaxAlg
