import Verif.Sat.Analyze
/-!
# Backjumping, learning, reduction of the clause store, search
-/
namespace Verif.Sat

/-! ## backjumping -/

theorem mem_insHeap {h : List Nat} {v x : Nat} : x ∈ insHeap h v ↔ x ∈ h ∨ x = v := by
  unfold insHeap
  split
  · constructor
    · exact Or.inl
    · rintro (h | rfl) <;> assumption
  · rw [List.mem_cons]; exact Or.comm

theorem mem_foldl_insHeap {x : Nat} : ∀ (vs h : List Nat), x ∈ vs.foldl insHeap h ↔ x ∈ h ∨ x ∈ vs
  | [], h => by simp
  | v :: vs, h => by
    rw [List.foldl_cons, mem_foldl_insHeap vs, mem_insHeap, List.mem_cons, or_assoc]

/-- the levels above `bt` are cut off -/
structure Cut (s s' : S) (bt : Nat) : Prop where
  nVars : s'.nVars = s.nVars
  ok : s'.ok = s.ok
  units : s'.units = s.units
  clauses : s'.clauses = s.clauses
  learnts : s'.learnts = s.learnts
  nextId : s'.nextId = s.nextId
  cls : s'.cls = s.cls
  watches : s'.watches = s.watches
  watchesBin : s'.watchesBin = s.watchesBin
  conflict : s'.conflict = s.conflict
  model : s'.model = s.model
  stateId : s'.stateId = s.stateId
  valid : s'.valid = s.valid
  level : s'.level = s.level
  reason : s'.reason = s.reason
  seen : s'.seen = s.seen
  dl : s'.dl = bt
  trail : ∀ l, l ∈ s'.trail ↔ l ∈ s.trail ∧ s.level (l / 2) ≤ bt
  suf : s'.trail <:+ s.trail
  heap : ∀ v ∈ s'.heap, v ∈ s.heap ∨ v < s.nVars
  ams : s'.ams = s.ams
  am : s'.am = s.am

theorem cancel_spec {Φ : (Nat → Bool) → Prop} {J : Nat → Prop} {s : S} {bt : Nat} (h : PI Φ J s (fun _ w => s.level (w / 2) = s.dl)) (hbt : bt < s.dl) :
    PI Φ J (cancelUntil s bt) (fun _ _ => False) ∧ Cut s (cancelUntil s bt) bt ∧ (cancelUntil s bt).qhead = (cancelUntil s bt).trail.length := by
  have hlen : (s.trailLim.drop (s.dl - 1 - bt)).length = bt + 1 := by
    rw [List.length_drop]
    show s.dl - (s.dl - 1 - bt) = bt + 1
    omega
  unfold cancelUntil
  rw [if_pos hbt]
  cases hdr : s.trailLim.drop (s.dl - 1 - bt) with
  | nil => rw [hdr] at hlen; simp at hlen
  | cons lim older =>
    rw [hdr] at hlen
    simp only [List.length_cons, Nat.add_right_cancel_iff] at hlen
    have hsplit : s.trailLim = s.trailLim.take (s.dl - 1 - bt) ++ lim :: older := by rw [← hdr, List.take_append_drop]
    generalize s.trailLim.take (s.dl - 1 - bt) = newer at hsplit
    dsimp only
    have hS := h.t.tlimS
    rw [hsplit, List.pairwise_append] at hS
    obtain ⟨_, hS2, hS3⟩ := hS
    rw [List.pairwise_cons] at hS2
    have hlim : lim ≤ s.trail.length := h.t.tlimLe lim (by rw [hsplit]; simp)
    -- the trail in two parts
    obtain ⟨tt, ht⟩ : ∃ tt, s.trail.take (s.trail.length - lim) = tt := ⟨_, rfl⟩
    obtain ⟨tb, hb⟩ : ∃ tb, s.trail.drop (s.trail.length - lim) = tb := ⟨_, rfl⟩
    have htb : s.trail = tt ++ tb := by rw [← ht, ← hb, List.take_append_drop]
    have htbl : tb.length = lim := by rw [← hb, List.length_drop]; omega
    rw [ht, hb]
    have hsuf : tb <:+ s.trail := ⟨tt, htb.symm⟩
    have hlow : ∀ l rest, (l :: rest) <:+ tb → s.level (l / 2) ≤ bt ∧ s.level (l / 2) = (older.filter (· ≤ rest.length)).length := by
      intro l rest hl
      have h1 := h.t.tlev l rest (hl.trans hsuf)
      have h2 := hl.length_le
      rw [List.length_cons, htbl] at h2
      rw [hsplit, List.filter_append, List.filter_cons, if_neg (by simp only [decide_eq_true_eq]; omega)] at h1
      rw [List.filter_eq_nil_iff.2 (by
        intro x hx
        have := hS3 x hx lim List.mem_cons_self
        simp only [decide_eq_true_eq]; omega)] at h1
      rw [List.nil_append] at h1
      refine ⟨?_, h1⟩
      rw [h1, ← hlen]
      exact List.length_filter_le _ _
    have hhigh : ∀ l ∈ tt, bt < s.level (l / 2) := by
      intro l hl
      obtain ⟨a, b, e⟩ := List.append_of_mem hl
      have h1 := h.t.tlev l (b ++ tb) ⟨a, by rw [htb, e]; simp⟩
      rw [h1, hsplit, List.filter_append, List.length_append, (List.filter_eq_self (l := lim :: older)).2]
      · rw [List.length_cons, hlen]; omega
      · intro x hx
        simp only [List.length_append, htbl, decide_eq_true_eq]
        rcases List.mem_cons.1 hx with rfl | hx
        · omega
        · have := hS2.1 x hx; omega
    have hmem : ∀ l, l ∈ tb ↔ l ∈ s.trail ∧ s.level (l / 2) ≤ bt := by
      intro l
      constructor
      · intro hl
        obtain ⟨rest, hr⟩ := mem_suffix hl
        exact ⟨hsuf.subset hl, (hlow l rest hr).1⟩
      · rintro ⟨h1, h2⟩
        rw [htb, List.mem_append] at h1
        rcases h1 with h1 | h1
        · have := hhigh l h1; omega
        · exact h1
    have hval : ∀ l, S.value { s with
        val := fun v => if v ∈ tt.map (· / 2) then none else s.val v
        heap := (tt.map (· / 2)).foldl insHeap s.heap
        qhead := lim
        trail := tb
        trailLim := older } l = if l / 2 ∈ tt.map (· / 2) then none else s.value l := by
      intro l
      unfold S.value
      dsimp only
      split <;> split <;> rfl
    have hproc : S.proc { s with
        val := fun v => if v ∈ tt.map (· / 2) then none else s.val v
        heap := (tt.map (· / 2)).foldl insHeap s.heap
        qhead := lim
        trail := tb
        trailLim := older } = tb := by
      unfold S.proc
      dsimp only
      rw [htbl, Nat.sub_self, List.drop_zero]
    have hprc : ∀ l ∈ tb, l ∈ s.proc := by
      intro l hl
      have hp' := (hmem l).1 hl
      by_contra hn
      obtain ⟨rest, hr⟩ := mem_suffix hp'.1
      have := h.q l rest hr ?_
      · omega
      · by_contra hlt
        apply hn
        obtain ⟨pre, hpre⟩ := hr
        unfold S.proc
        rw [← hpre]
        have : (pre ++ l :: rest).length - s.qhead ≤ pre.length := by
          simp only [List.length_append, List.length_cons]; omega
        rw [List.drop_append_of_le_length this]
        simp
    refine ⟨⟨⟨h.d.idlt, h.d.nodupAtt, h.d.clNodup, h.d.range, h.d.wNodup, h.d.wMem, h.d.wAll, h.d.bMem, h.d.bAll, h.d.seen0, h.d.wOne⟩, ?_, ⟨h.m.db, ?_, h.m.jcl, ?_⟩, ?_, ?_, ?_⟩, ?_, ?_⟩
    · refine ⟨?_, ?_, ?_, ?_, ?_, hS2.2, ?_, ?_, ?_⟩
      · intro l
        rw [hval]
        show _ ↔ l ∈ tb
        by_cases e : l / 2 ∈ tt.map (· / 2)
        · rw [if_pos e]
          simp only [reduceCtorEq, false_iff]
          intro hl
          obtain ⟨x, hx, hxe⟩ := List.mem_map.1 e
          have h1 := hhigh x hx
          have h2 := ((hmem l).1 hl).2
          rw [hxe] at h1; omega
        · rw [if_neg e, h.t.tval, htb, List.mem_append]
          constructor
          · rintro (h1 | h1)
            · exact absurd (List.mem_map.2 ⟨l, h1, rfl⟩) e
            · exact h1
          · exact Or.inr
      · intro l hl; exact h.t.trange l (hsuf.subset hl)
      · intro l rest hl; exact (hlow l rest hl).2
      · intro l rest hl; exact h.t.tdup l rest (hl.trans hsuf)
      · intro l rest hl hp
        have h1 := h.t.treason l rest (hl.trans hsuf) hp
        show ReasonOk _ (s.reason (l / 2)) l rest
        cases hr : s.reason (l / 2) with
        | some c =>
          rw [hr] at h1
          refine ⟨h1.1, fun k hk => ?_⟩
          obtain ⟨a1, a2, a3, a4⟩ := h1.2 k hk
          exact ⟨a1, a2, a3, fun q hq hqt => a4 q hq (hsuf.subset hqt)⟩
        | none =>
          rw [hr] at h1
          have h1 : rest.length ∈ s.trailLim := h1
          show rest.length ∈ older
          have h2 := hl.length_le
          rw [List.length_cons, htbl] at h2
          rw [hsplit] at h1
          rcases List.mem_append.1 h1 with h1 | h1
          · have := hS3 _ h1 lim List.mem_cons_self; omega
          · rcases List.mem_cons.1 h1 with h1 | h1
            · omega
            · exact h1
      · intro x hx
        have := hS2.1 x hx
        show x ≤ tb.length
        omega
      · intro v hv h0
        show v ∈ (tt.map (· / 2)).foldl insHeap s.heap
        rw [mem_foldl_insHeap]
        dsimp only at h0
        split at h0
        · rename_i e; exact Or.inr e
        · exact Or.inl (h.t.heapAll v hv h0)
      · show lim ≤ tb.length
        omega
    · intro l hl; exact h.m.imp0 l (hsuf.subset hl)
    · intro l hl; exact h.m.jtr l (hsuf.subset hl)
    · intro l rest hl hq
      have h2 := hl.length_le
      have hq : lim ≤ rest.length := hq
      have h2 : rest.length + 1 ≤ tb.length := h2
      omega
    · intro c hc w hw hp _
      rw [hproc] at hp
      have hp' := (hmem _).1 hp
      have hpr := hprc _ hp
      rw [neg_var] at hp'
      obtain ⟨y, h1, h2, h3⟩ := h.w c hc w hw hpr (by omega)
      exact ⟨y, h1, (hmem y).2 ⟨h2, by omega⟩, h3⟩
    · obtain ⟨h1, h2, h3, h4, h5, h6, h7, h8, h9, h10, h11, h12, h13, h14, h15, h16⟩ := h.a
      refine ⟨h1, h2, h3, h4, h5, h6, h7, h8, h9, h10, h11, h12, h13, h14, ?_, ?_⟩
      · intro c hc k hk x hx hp _ y hy hne
        rw [hproc] at hp
        have hp' := (hmem _).1 hp
        obtain ⟨b1, b2⟩ := h15 c hc k hk x hx (hprc _ hp) (by rw [neg_var]; omega) y hy hne
        exact ⟨(hmem _).2 ⟨b1, by rw [neg_var]; omega⟩, b2⟩
      · intro x hx hl c hr k hk he q hq
        have hx' := (hmem x).1 hx
        obtain ⟨b1, b2⟩ := h16 x hx'.1 hl c hr k hk he q hq
        have b2' : s.level (q / 2) ≤ s.level (x / 2) := b2
        exact ⟨b1.imp (fun b => (hmem q).2 ⟨b, by omega⟩) fun b => (hmem _).2 ⟨b, by rw [neg_var]; omega⟩, b2⟩
    · refine ⟨rfl, rfl, rfl, rfl, rfl, rfl, rfl, rfl, rfl, rfl, rfl, rfl, rfl, rfl, rfl, rfl, hlen, hmem, hsuf, ?_, rfl, rfl⟩
      intro v hv
      rw [mem_foldl_insHeap] at hv
      rcases hv with hv | hv
      · exact Or.inl hv
      · obtain ⟨x, hx, rfl⟩ := List.mem_map.1 hv
        exact Or.inr (h.t.trange x (by rw [htb]; exact List.mem_append_left _ hx))
    · exact htbl.symm

/-! ## new clauses -/

theorem PI.congr {Φ : (Nat → Bool) → Prop} {J : Nat → Prop} {s : S} {ex ex' : Nat → Nat → Prop} (h : PI Φ J s ex) (he : ∀ c w, ex c w → ex' c w) : PI Φ J s ex' :=
  ⟨h.d, h.t, h.m, h.q, fun c hc w hw hp hex => h.w c hc w hw hp fun e => hex (he c w e), h.a.mono fun c _ _ _ x _ _ h1 h2 => absurd (he c _ h1) h2⟩

theorem attach_cls (s : S) (k : Cls) : (attach s k).cls = upd s.cls s.nextId k ∧ (attach s k).clauses = s.clauses ∧ (attach s k).learnts = s.learnts ∧
    (attach s k).nextId = s.nextId + 1 ∧ (attach s k).val = s.val ∧ (attach s k).level = s.level ∧ (attach s k).reason = s.reason ∧ (attach s k).trail = s.trail ∧
    (attach s k).trailLim = s.trailLim ∧ (attach s k).heap = s.heap ∧ (attach s k).seen = s.seen ∧ (attach s k).qhead = s.qhead ∧ (attach s k).nVars = s.nVars ∧
    (attach s k).ok = s.ok ∧ (attach s k).units = s.units ∧ (attach s k).conflict = s.conflict ∧ (attach s k).model = s.model ∧ (attach s k).stateId = s.stateId ∧
    (attach s k).valid = s.valid ∧ (attach s k).ams = s.ams ∧ (attach s k).am = s.am := by
  unfold attach
  dsimp only
  split <;> exact ⟨rfl, rfl, rfl, rfl, rfl, rfl, rfl, rfl, rfl, rfl, rfl, rfl, rfl, rfl, rfl, rfl, rfl, rfl, rfl, rfl, rfl⟩

/-- the entries of the watcher lists after a clause has been put in -/
theorem put_mem {w : Nat → List (Nat × Nat)} {i a b l : Nat} {e : Nat × Nat} (hab : a ≠ b) :
    e ∈ (upd (upd w (neg a) (w (neg a) ++ [(i, b)])) (neg b) (upd w (neg a) (w (neg a) ++ [(i, b)]) (neg b) ++ [(i, a)])) l ↔
      e ∈ w l ∨ (l = neg a ∧ e = (i, b)) ∨ (l = neg b ∧ e = (i, a)) := by
  have hnab : neg b ≠ neg a := fun e => hab (neg_inj e).symm
  rw [upd_ne _ _ hnab]
  by_cases e1 : l = neg b
  · subst e1
    rw [upd_same]
    simp [hnab]
  · rw [upd_ne _ _ e1]
    by_cases e2 : l = neg a
    · subst e2
      rw [upd_same]
      simp [e1]
    · rw [upd_ne _ _ e2]
      simp [e1, e2]

theorem put_nodup {w : Nat → List (Nat × Nat)} {i a b : Nat} (hab : a ≠ b) (hn : ∀ l, ((w l).map Prod.fst).Nodup) (hi : ∀ l, i ∉ (w l).map Prod.fst) (l : Nat) :
    (((upd (upd w (neg a) (w (neg a) ++ [(i, b)])) (neg b) (upd w (neg a) (w (neg a) ++ [(i, b)]) (neg b) ++ [(i, a)])) l).map Prod.fst).Nodup := by
  have hnab : neg b ≠ neg a := fun e => hab (neg_inj e).symm
  have key : ∀ (l x : Nat), ((w l ++ [(i, x)]).map Prod.fst).Nodup := by
    intro l x
    rw [List.map_append, List.nodup_append]
    refine ⟨hn l, by simp, ?_⟩
    intro y hy z hz
    simp only [List.map_cons, List.map_nil, List.mem_singleton] at hz
    subst hz
    rintro rfl
    exact hi l hy
  rw [upd_ne _ _ hnab]
  by_cases e1 : l = neg b
  · subst e1
    rw [upd_same]
    exact key _ _
  · rw [upd_ne _ _ e1]
    by_cases e2 : l = neg a
    · subst e2
      rw [upd_same]
      exact key _ _
    · rw [upd_ne _ _ e2]
      exact hn l

/-- a new clause comes into the store -/
theorem attach_spec {Φ : (Nat → Bool) → Prop} {J : Nat → Prop} {s s0 : S} {k : Cls} (h : PI Φ J s (fun _ _ => False)) (hn : k.lits.Nodup) (hr : ∀ l ∈ k.lits, l / 2 < s.nVars)
    (himp : ∀ u, Φ u → Sat u k.lits) (hj : ∀ l ∈ k.lits, (∀ q ∈ k.lits, q ≠ l → J (neg q)) → J l)
    (hs0 : (∃ L, s0 = { s with learnts := L } ∧ L = s.learnts ++ [s.nextId]) ∨ ∃ C, s0 = { s with clauses := C } ∧ C = s.clauses ++ [s.nextId]) :
    PI Φ J (attach s0 k) (fun c _ => c = s.nextId) := by
  have hnid : s.nextId ∉ s.att := fun e => Nat.lt_irrefl _ (h.d.idlt _ e)
  have hatt : s0.att.Perm (s.nextId :: s.att) := by
    rcases hs0 with ⟨L, e, e'⟩ | ⟨C, e, e'⟩
    · subst e; subst e'
      show (s.clauses ++ (s.learnts ++ [s.nextId])).Perm _
      rw [← List.append_assoc]
      exact List.perm_append_comm
    · subst e; subst e'
      show (s.clauses ++ [s.nextId] ++ s.learnts).Perm _
      rw [List.append_assoc]
      exact List.perm_middle
  have hf : s0.nVars = s.nVars ∧ s0.cls = s.cls ∧ s0.nextId = s.nextId ∧ s0.watches = s.watches ∧ s0.watchesBin = s.watchesBin ∧ s0.val = s.val ∧ s0.level = s.level ∧
      s0.reason = s.reason ∧ s0.trail = s.trail ∧ s0.trailLim = s.trailLim ∧ s0.heap = s.heap ∧ s0.seen = s.seen ∧ s0.qhead = s.qhead ∧ s0.ams = s.ams ∧ s0.am = s.am := by
    rcases hs0 with ⟨L, e, _⟩ | ⟨C, e, _⟩ <;> subst e <;> exact ⟨rfl, rfl, rfl, rfl, rfl, rfl, rfl, rfl, rfl, rfl, rfl, rfl, rfl, rfl, rfl⟩
  obtain ⟨f1, f2, f3, f4, f5, f6, f7, f8, f9, f10, f11, f12, f13, f14, f15⟩ := hf
  obtain ⟨g1, g2, g3, g4, g5, g6, g7, g8, g9, g10, g11, g12, g13, _, _, _, _, _, _, g20, g21⟩ := attach_cls s0 k
  have hab : k.a ≠ k.b := by
    simp only [Cls.lits, List.nodup_cons, List.mem_cons, not_or] at hn
    exact hn.1.1
  have hatt' : ∀ c, c ∈ (attach s0 k).att ↔ c = s.nextId ∨ c ∈ s.att := by
    intro c
    have : (attach s0 k).att = s0.att := by unfold S.att; rw [g2, g3]
    rw [this, hatt.mem_iff, List.mem_cons]
  have hcnew : (attach s0 k).cls s.nextId = k := by rw [g1, f3, upd_same]
  have hcold : ∀ c ∈ s.att, (attach s0 k).cls c = s.cls c := by
    intro c hc
    rw [g1, f3, upd_ne, f2]
    rintro rfl; exact hnid hc
  have hW : ∀ l e, e ∈ (attach s0 k).watches l ↔ e ∈ s.watches l ∨ (k.rest ≠ [] ∧ ((l = neg k.a ∧ e = (s.nextId, k.b)) ∨ (l = neg k.b ∧ e = (s.nextId, k.a)))) := by
    intro l e
    unfold attach
    dsimp only
    by_cases hk : k.rest = []
    · rw [if_pos (by simp [hk])]
      simp [hk, f4]
    · rw [if_neg (by simpa using hk)]
      simp only [put_mem hab, f3, f4]
      simp [hk]
  have hB : ∀ l e, e ∈ (attach s0 k).watchesBin l ↔ e ∈ s.watchesBin l ∨ (k.rest = [] ∧ ((l = neg k.a ∧ e = (s.nextId, k.b)) ∨ (l = neg k.b ∧ e = (s.nextId, k.a)))) := by
    intro l e
    unfold attach
    dsimp only
    by_cases hk : k.rest = []
    · rw [if_pos (by simp [hk])]
      simp only [put_mem hab, f3, f5]
      simp [hk]
    · rw [if_neg (by simpa using hk)]
      simp [hk, f5]
  have hval : ∀ l, (attach s0 k).value l = s.value l := by
    intro l; unfold S.value; rw [g5, f6]
  have hproc : (attach s0 k).proc = s.proc := by unfold S.proc; rw [g8, g12, f9, f13]
  refine ⟨⟨?_, ?_, ?_, ?_, ?_, ?_, ?_, ?_, ?_, ?_, ?_⟩, ⟨?_, ?_, ?_, ?_, ?_, ?_, ?_, ?_, ?_⟩, ⟨?_, ?_, ?_, ?_⟩, ?_, ?_, ?_⟩
  · intro c hc
    rw [g4, f3]
    rcases (hatt' c).1 hc with rfl | hc
    · exact Nat.lt_succ_self _
    · exact Nat.lt_succ_of_lt (h.d.idlt c hc)
  · have : (attach s0 k).att = s0.att := by unfold S.att; rw [g2, g3]
    rw [this, hatt.nodup_iff, List.nodup_cons]
    exact ⟨hnid, h.d.nodupAtt⟩
  · intro c hc
    rcases (hatt' c).1 hc with rfl | hc
    · rw [hcnew]; exact hn
    · rw [hcold c hc]; exact h.d.clNodup c hc
  · intro c hc l hl
    rw [g13, f1]
    rcases (hatt' c).1 hc with rfl | hc
    · rw [hcnew] at hl; exact hr l hl
    · rw [hcold c hc] at hl; exact h.d.range c hc l hl
  · intro l
    unfold attach
    dsimp only
    split
    · dsimp only; rw [f4]; exact h.d.wNodup l
    · dsimp only
      rw [f3, f4]
      refine put_nodup hab h.d.wNodup ?_ l
      intro l hl
      obtain ⟨⟨c, b⟩, hm, e⟩ := List.mem_map.1 hl
      dsimp only at e
      have := (h.d.wMem l c b hm (h.a.new c (by omega))).1
      subst e; exact hnid this
  · intro l c b hb hcm
    rw [g21, f15] at hcm
    rcases (hW l (c, b)).1 hb with hb | ⟨hk, hb⟩
    · obtain ⟨h1, h2, h3, h4⟩ := h.d.wMem l c b hb hcm
      rw [hcold c h1]
      exact ⟨(hatt' c).2 (Or.inr h1), h2, h3, h4⟩
    · rcases hb with ⟨rfl, e⟩ | ⟨rfl, e⟩ <;> cases e <;> rw [hcnew, neg_neg]
      · exact ⟨(hatt' _).2 (Or.inl rfl), hk, Or.inl rfl, by simp [Cls.lits]⟩
      · exact ⟨(hatt' _).2 (Or.inl rfl), hk, Or.inr rfl, by simp [Cls.lits]⟩
  · intro c hc hrc w hw
    rw [List.mem_map]
    rcases (hatt' c).1 hc with rfl | hc
    · rw [hcnew] at hrc hw
      rcases hw with rfl | rfl
      · exact ⟨_, (hW _ _).2 (Or.inr ⟨hrc, Or.inl ⟨rfl, rfl⟩⟩), rfl⟩
      · exact ⟨_, (hW _ _).2 (Or.inr ⟨hrc, Or.inr ⟨rfl, rfl⟩⟩), rfl⟩
    · rw [hcold c hc] at hrc hw
      obtain ⟨e, he, h1⟩ := List.mem_map.1 (h.d.wAll c hc hrc w hw)
      exact ⟨e, (hW _ _).2 (Or.inl he), h1⟩
  · intro l c b hb
    rcases (hB l (c, b)).1 hb with hb | ⟨hk, hb⟩
    · obtain ⟨h1, h2, h3⟩ := h.d.bMem l c b hb
      rw [hcold c h1]
      exact ⟨(hatt' c).2 (Or.inr h1), h2, h3⟩
    · rcases hb with ⟨rfl, e⟩ | ⟨rfl, e⟩ <;> cases e <;> rw [hcnew, neg_neg]
      · exact ⟨(hatt' _).2 (Or.inl rfl), hk, Or.inl ⟨rfl, rfl⟩⟩
      · exact ⟨(hatt' _).2 (Or.inl rfl), hk, Or.inr ⟨rfl, rfl⟩⟩
  · intro c hc hrc w hw
    rw [List.mem_map]
    rcases (hatt' c).1 hc with rfl | hc
    · rw [hcnew] at hrc hw
      rcases hw with rfl | rfl
      · exact ⟨_, (hB _ _).2 (Or.inr ⟨hrc, Or.inl ⟨rfl, rfl⟩⟩), rfl⟩
      · exact ⟨_, (hB _ _).2 (Or.inr ⟨hrc, Or.inr ⟨rfl, rfl⟩⟩), rfl⟩
    · rw [hcold c hc] at hrc hw
      obtain ⟨e, he, h1⟩ := List.mem_map.1 (h.d.bAll c hc hrc w hw)
      exact ⟨e, (hB _ _).2 (Or.inl he), h1⟩
  · intro v; rw [g11, f12]; exact h.d.seen0 v
  · intro c hc hrc
    rcases (hatt' c).1 hc with rfl | hc
    · rw [hcnew] at hrc ⊢
      exact Or.inl ((hW _ _).2 (Or.inr ⟨hrc, Or.inl ⟨rfl, rfl⟩⟩))
    · rw [hcold c hc] at hrc ⊢
      rcases h.d.wOne c hc hrc with h1 | h1
      · exact Or.inl ((hW _ _).2 (Or.inl h1))
      · exact Or.inr ((hW _ _).2 (Or.inl h1))
  · intro l; rw [hval, g8, f9]; exact h.t.tval l
  · intro l hl; rw [g8, f9] at hl; rw [g13, f1]; exact h.t.trange l hl
  · intro l rest hl; rw [g8, f9] at hl; rw [g6, f7, g9, f10]; exact h.t.tlev l rest hl
  · intro l rest hl hp; rw [g8, f9] at hl; rw [g6, f7] at hp; exact h.t.tdup l rest hl hp
  · intro l rest hl hp
    rw [g8, f9] at hl; rw [g6, f7] at hp
    have h1 := h.t.treason l rest hl hp
    rw [g7, f8]
    cases hrs : s.reason (l / 2) with
    | none =>
      rw [hrs] at h1
      show rest.length ∈ (attach s0 k).trailLim
      rw [g9, f10]; exact h1
    | some c =>
      rw [hrs] at h1
      refine ⟨fun hcm => ?_, fun k' hk' => ?_⟩
      · rw [g21, f15] at hcm
        obtain ⟨a1, a2, a3, a4⟩ := h1.1 hcm
        have e := hcold c a1
        exact ⟨(hatt' c).2 (Or.inr a1), by rw [e]; exact a2, by rw [e]; exact a3, by rw [e]; exact a4⟩
      · rw [g21, f15] at hk'
        obtain ⟨a1, a2, a3, a4⟩ := h1.2 k' hk'
        exact ⟨by rw [g20, f14]; exact a1, a2, a3, by rw [g8, f9]; exact a4⟩
  · rw [g9, f10]; exact h.t.tlimS
  · rw [g9, f10, g8, f9]; exact h.t.tlimLe
  · rw [g13, f1, g5, f6, g10, f11]; exact h.t.heapAll
  · rw [g12, f13, g8, f9]; exact h.t.qle
  · intro c hc u hu
    rcases (hatt' c).1 hc with rfl | hc
    · rw [hcnew]; exact himp u hu
    · rw [hcold c hc]; exact h.m.db c hc u hu
  · rw [g8, f9, g6, f7]; exact h.m.imp0
  · intro c hc
    rcases (hatt' c).1 hc with rfl | hc
    · rw [hcnew]; exact hj
    · rw [hcold c hc]; exact h.m.jcl c hc
  · rw [g8, f9]; exact h.m.jtr
  · intro l rest hl hq
    rw [g8, f9] at hl; rw [g12, f13] at hq; rw [g6, f7]
    have := h.q l rest hl hq
    rw [this]; unfold S.dl; rw [g9, f10]
  · intro c hc w hw hp hne
    rcases (hatt' c).1 hc with rfl | hc
    · exact absurd rfl hne
    · rw [hcold c hc] at hw ⊢
      rw [hproc] at hp
      rw [g8, f9, g6, f7]
      obtain ⟨y, h1, h2, h3, h4⟩ := h.w c hc w hw hp not_false
      exact ⟨y, h1, h2, h3, fun hr => (hW _ _).2 (Or.inl (h4 hr))⟩
  · refine ⟨?_, ?_, ?_, ?_, ?_, ?_, ?_, ?_, ?_, ?_, ?_, ?_, ?_, ?_, ?_, ?_⟩ <;> (try rw [g21, f15]) <;> (try rw [g20, f14])
    · rw [g4, f3]; exact fun c hc => Nat.lt_succ_of_lt (h.a.idlt c hc)
    · rw [g4, f3]; exact fun c hc => h.a.new c (by omega)
    · exact h.a.nd
    · exact h.a.isam
    · intro c hc
      rcases (hatt' c).1 hc with rfl | hc
      · exact h.a.new _ (Nat.le_refl _)
      · exact h.a.att c hc
    · intro l c b hb
      rcases (hB l (c, b)).1 hb with hb | ⟨_, hb⟩
      · exact h.a.bin l c b hb
      · rcases hb with ⟨_, e⟩ | ⟨_, e⟩ <;> cases e <;> exact h.a.new _ (Nat.le_refl _)
    · exact h.a.nodup
    · exact h.a.pos
    · rw [g13, f1]; exact h.a.range
    · exact h.a.two
    · intro l c b k' hb hk'
      rcases (hW l (c, b)).1 hb with hb | ⟨_, hb⟩
      · exact h.a.wm l c b k' hb hk'
      · rcases hb with ⟨_, e⟩ | ⟨_, e⟩ <;> cases e <;> (rw [h.a.new _ (Nat.le_refl _)] at hk'; cases hk')
    · intro c hc k' hk' x hx
      obtain ⟨e, he, h1⟩ := List.mem_map.1 (h.a.wa c hc k' hk' x hx)
      exact List.mem_map.2 ⟨e, (hW _ _).2 (Or.inl he), h1⟩
    · exact h.a.sem
    · exact h.a.jcl
    · rw [hproc, g8, f9, g6, f7]
      exact fun c hc k' hk' x hx hp _ => h.a.w c hc k' hk' x hx hp not_false
    · rw [g8, f9, g6, f7, g7, f8]
      exact h.a.full

/-- fields that the invariants do not look at -/
theorem PI.irrel {Φ : (Nat → Bool) → Prop} {J : Nat → Prop} {s s' : S} {ex : Nat → Nat → Prop} (h : PI Φ J s ex)
    (e : s' = { s with ok := s'.ok, units := s'.units, conflict := s'.conflict, model := s'.model, stateId := s'.stateId, valid := s'.valid }) : PI Φ J s' ex := by
  rw [e]
  exact ⟨⟨h.d.idlt, h.d.nodupAtt, h.d.clNodup, h.d.range, h.d.wNodup, h.d.wMem, h.d.wAll, h.d.bMem, h.d.bAll, h.d.seen0, h.d.wOne⟩,
    ⟨h.t.tval, h.t.trange, h.t.tlev, h.t.tdup, h.t.treason, h.t.tlimS, h.t.tlimLe, h.t.heapAll, h.t.qle⟩, ⟨h.m.db, h.m.imp0, h.m.jcl, h.m.jtr⟩, h.q, h.w, h.a.congr rfl⟩

/-! ## what the search changes in the clause store -/

structure Evo (s s' : S) : Prop where
  nVars : s'.nVars = s.nVars
  clauses : s'.clauses = s.clauses
  stateId : s'.stateId = s.stateId
  valid : s'.valid = s.valid
  old : ∀ c ∈ s.clauses, (s'.cls c).lits.Perm (s.cls c).lits
  lr : ∀ c ∈ s'.learnts, (c ∈ s.learnts ∧ (s'.cls c).lits.Perm (s.cls c).lits ∧ (s'.cls c).learntOn = (s.cls c).learntOn) ∨ (s'.cls c).learntOn = some s.stateId
  units : s.units <+: s'.units
  ams : s'.ams = s.ams
  am : ∀ c, AmSim (s.am c) (s'.am c)

theorem Evo.refl (s : S) : Evo s s :=
  ⟨rfl, rfl, rfl, rfl, fun _ _ => .refl _, fun _ hc => Or.inl ⟨hc, .refl _, rfl⟩, List.prefix_refl _, rfl, fun _ => .refl _⟩

theorem Evo.trans {s s' s'' : S} (h : Evo s s') (h' : Evo s' s'') : Evo s s'' := by
  refine ⟨h'.nVars.trans h.nVars, h'.clauses.trans h.clauses, h'.stateId.trans h.stateId, h'.valid.trans h.valid, ?_, ?_, h.units.trans h'.units, h'.ams.trans h.ams, fun c => (h.am c).trans (h'.am c)⟩
  · intro c hc
    exact (h'.old c (h.clauses ▸ hc)).trans (h.old c hc)
  · intro c hc
    rcases h'.lr c hc with ⟨h1, h2, h3⟩ | h1
    · rcases h.lr c h1 with ⟨h4, h5, h6⟩ | h4
      · exact Or.inl ⟨h4, h2.trans h5, h3.trans h6⟩
      · exact Or.inr (h3.trans h4)
    · exact Or.inr (h1.trans (by rw [h.stateId]))

theorem Frame.evo {s s' : S} (h : Frame s s') : Evo s s' :=
  ⟨h.nVars, h.clauses, h.stateId, h.valid, fun c _ => h.lits c, fun c hc => Or.inl ⟨h.learnts ▸ hc, h.lits c, h.learntOn c⟩, by rw [h.units]; exact List.prefix_refl _, h.ams, h.am⟩

theorem Cut.evo {s s' : S} {bt : Nat} (h : Cut s s' bt) : Evo s s' :=
  ⟨h.nVars, h.clauses, h.stateId, h.valid, fun c _ => by rw [h.cls], fun c hc => Or.inl ⟨h.learnts ▸ hc, by rw [h.cls], by rw [h.cls]⟩, by rw [h.units]; exact List.prefix_refl _, h.ams, fun c => by rw [h.am]; exact .refl _⟩

/-! ## the part of the invariant about units, branching order and assumptions -/

structure SX (asm : List Nat) (s : S) : Prop where
  un : ∀ l ∈ s.units, l ∈ s.trail ∧ s.level (l / 2) = 0
  hr : ∀ v ∈ s.heap, v < s.nVars
  a1 : ∀ l ∈ s.trail, 0 < s.level (l / 2) → s.reason (l / 2) = none → s.level (l / 2) ≤ asm.length → l ∈ asm
  a2 : ∀ (i p : Nat), i < s.dl → asm[i]? = some p → p ∈ s.trail ∧ s.level (p / 2) ≤ i + 1

theorem SX.frame {asm : List Nat} {s s' : S} (h : SX asm s) (f : Frame s s') : SX asm s' := by
  refine ⟨fun l hl => ?_, fun v hv => ?_, fun l hl h1 h2 h3 => ?_, fun i p hi hp => ?_⟩
  · obtain ⟨h1, h2⟩ := h.un l (f.units ▸ hl)
    exact ⟨f.trail.subset h1, by rw [f.level l h1]; exact h2⟩
  · rw [f.nVars]; exact h.hr v (f.heap ▸ hv)
  · by_cases e : l ∈ s.trail
    · rw [f.level l e] at h1 h3
      rw [f.reason l e] at h2
      exact h.a1 l e h1 h2 h3
    · exact absurd h2 (f.new l hl e)
  · have hi' : i < s.dl := by unfold S.dl at hi ⊢; rw [f.trailLim] at hi; exact hi
    obtain ⟨h1, h2⟩ := h.a2 i p hi' hp
    exact ⟨f.trail.subset h1, by rw [f.level p h1]; exact h2⟩

theorem SX.cut {asm : List Nat} {s s' : S} {bt : Nat} (h : SX asm s) (f : Cut s s' bt) (hb : bt < s.dl) : SX asm s' := by
  refine ⟨fun l hl => ?_, fun v hv => ?_, fun l hl h1 h2 h3 => ?_, fun i p hi hp => ?_⟩
  · obtain ⟨h1, h2⟩ := h.un l (f.units ▸ hl)
    rw [f.level]
    exact ⟨(f.trail l).2 ⟨h1, by omega⟩, h2⟩
  · rw [f.nVars]
    rcases f.heap v hv with hv | hv
    · exact h.hr v hv
    · exact hv
  · rw [f.level] at h1 h3
    rw [f.reason] at h2
    exact h.a1 l ((f.trail l).1 hl).1 h1 h2 h3
  · rw [f.dl] at hi
    obtain ⟨h1, h2⟩ := h.a2 i p (by omega) hp
    rw [f.level]
    exact ⟨(f.trail p).2 ⟨h1, by omega⟩, h2⟩

theorem SX.enqueue {asm : List Nat} {s : S} (h : SX asm s) (ht : Tr s) {l : Nat} {r : Option Nat} (hv : s.value l = none)
    (hr : r = none → 0 < s.dl → s.dl ≤ asm.length → l ∈ asm) : SX asm (Sat.enqueue s l r) := by
  have hl := fun x hx => enqueue_level ht (Or.inl hv) r (x := x) hx
  have hlev : (Sat.enqueue s l r).level (l / 2) = s.dl := upd_same _ _ _
  refine ⟨fun x hx => ?_, h.hr, fun x hx h1 h2 h3 => ?_, fun i p hi hp => ?_⟩
  · obtain ⟨h1, h2⟩ := h.un x hx
    exact ⟨List.mem_cons_of_mem _ h1, by rw [hl x h1]; exact h2⟩
  · rcases List.mem_cons.1 hx with rfl | hx
    · rw [hlev] at h1 h3
      have : (Sat.enqueue s x r).reason (x / 2) = r := upd_same _ _ _
      rw [this] at h2
      exact hr h2 h1 h3
    · rw [hl x hx] at h1 h3
      have : (Sat.enqueue s l r).reason (x / 2) = s.reason (x / 2) := upd_ne _ _ (ht.var_ne hv hx)
      rw [this] at h2
      exact h.a1 x hx h1 h2 h3
  · obtain ⟨h1, h2⟩ := h.a2 i p hi hp
    exact ⟨List.mem_cons_of_mem _ h1, by rw [hl p h1]; exact h2⟩

/-! ## learning -/

/-- all literals satisfy it -/
abbrev TT : Nat → Prop := fun _ => True

theorem learn_entry (s : S) (k : Cls) (h : k.rest ≠ []) : (s.nextId, k.a) ∈ (attach s k).watches (neg k.b) := by
  unfold attach
  dsimp only
  rw [if_neg (by simpa using h)]
  dsimp only
  rw [upd_same]
  simp

theorem learn_spec {Φ : (Nat → Bool) → Prop} {asm : List Nat} {s : S} {c l0 bt : Nat} {out : List Nat} {seen : Nat → Bool} (h : Confl Φ TT s c) (hx : SX asm s)
    (ha : AnOk Φ s l0 out bt seen) :
    PI Φ TT (learn (cancelUntil { s with seen := seen } bt) l0 out) (fun _ _ => False) ∧ SX asm (learn (cancelUntil { s with seen := seen } bt) l0 out) ∧
      Evo s (learn (cancelUntil { s with seen := seen } bt) l0 out) ∧ (learn (cancelUntil { s with seen := seen } bt) l0 out).ok = s.ok ∧
      (learn (cancelUntil { s with seen := seen } bt) l0 out).conflict = s.conflict := by
  have hse : seen = s.seen := funext fun v => by rw [ha.clr v, h.pi.d.seen0 v]
  subst hse
  obtain ⟨h1, hcut, hqh⟩ := cancel_spec h.pi ha.lt
  have hx1 := hx.cut hcut ha.lt
  have hev := hcut.evo
  change PI Φ TT (learn (cancelUntil s bt) l0 out) _ ∧ SX asm (learn (cancelUntil s bt) l0 out) ∧ Evo s (learn (cancelUntil s bt) l0 out) ∧ _
  change _ ∧ _ ∧ _ ∧ (learn (cancelUntil s bt) l0 out).ok = s.ok ∧ (learn (cancelUntil s bt) l0 out).conflict = s.conflict
  generalize cancelUntil s bt = s1 at h1 hcut hqh hx1 hev
  have hv : s1.value l0 = none := by
    cases hv : s1.value l0 with
    | none => rfl
    | some b =>
      exfalso
      have hlt : ∀ x, x ∈ s1.trail → x / 2 ≠ l0 / 2 := by
        intro x hx e
        have := ((hcut.trail x).1 hx).2
        rw [e, ha.cur] at this
        have := ha.lt; omega
      cases b with
      | true => exact hlt l0 ((h1.t.tval l0).1 hv) rfl
      | false => exact hlt (neg l0) ((h1.t.false_iff l0).1 hv) (neg_var l0)
  have hrange : ∀ q ∈ l0 :: out, q / 2 < s1.nVars := by
    intro q hq
    rw [hcut.nVars]
    rcases List.mem_cons.1 hq with rfl | hq
    · have := h.pi.t.trange _ ha.fst; rwa [neg_var] at this
    · have := h.pi.t.trange _ (ha.oth q hq).1; rwa [neg_var] at this
  have hfls : ∀ q ∈ out, neg q ∈ s1.trail := by
    intro q hq
    refine (hcut.trail _).2 ⟨(ha.oth q hq).1, ?_⟩
    rw [neg_var]; exact ha.max q hq
  unfold learn
  cases ho : out with
  | nil =>
    dsimp only
    have hb0 := ha.nil ho
    have hdl : s1.dl = 0 := by rw [hcut.dl, hb0]
    have hp := h1.enqueue (r := none) (Or.inl hv) (hrange l0 List.mem_cons_self) (by omega) (fun _ u hu => by
      obtain ⟨q, hq, hqv⟩ := ha.imp u hu
      rw [ho, List.mem_singleton] at hq
      exact hq ▸ hqv) trivial (fun _ e => by cases e)
    have hsx := hx1.enqueue h1.t (r := none) hv (by omega)
    refine ⟨hp.irrel rfl, ⟨fun l hl => ?_, hsx.hr, hsx.a1, hsx.a2⟩, ?_, hcut.ok, hcut.conflict⟩
    · rcases List.mem_append.1 hl with hl | hl
      · exact hsx.un l hl
      · rw [List.mem_singleton] at hl; subst hl
        exact ⟨List.mem_cons_self, (upd_same _ _ _).trans hdl⟩
    · exact ⟨hev.nVars, hev.clauses, hev.stateId, hev.valid, hev.old, hev.lr, hev.units.trans (List.prefix_append _ _), hev.ams, hev.am⟩
  | cons b rest =>
    dsimp only
    have hk : (Cls.mk l0 b rest (some s1.stateId)).lits = l0 :: out := by rw [ho]; rfl
    have hat := attach_spec (J := TT) (k := ⟨l0, b, rest, some s1.stateId⟩) h1 (by rw [hk]; exact ha.nd) (by rw [hk]; exact hrange) (by rw [hk]; exact ha.imp)
      (fun _ _ _ => trivial) (Or.inl ⟨_, rfl, rfl⟩)
    obtain ⟨g1, g2, g3, g4, g5, g6, g7, g8, g9, g10, g11, g12, g13, g14, g15, g16, g17, g18, g19, g20, g21⟩ := attach_cls { s1 with learnts := s1.learnts ++ [s1.nextId] } ⟨l0, b, rest, some s1.stateId⟩
    have hxa : SX asm (attach { s1 with learnts := s1.learnts ++ [s1.nextId] } ⟨l0, b, rest, some s1.stateId⟩) := by
      refine ⟨?_, ?_, ?_, ?_⟩
      · rw [g15, g8, g6]; exact hx1.un
      · rw [g10, g13]; exact hx1.hr
      · rw [g8, g6, g7]; exact hx1.a1
      · unfold S.dl; rw [g9, g8, g6]; exact hx1.a2
    have hva : (attach { s1 with learnts := s1.learnts ++ [s1.nextId] } ⟨l0, b, rest, some s1.stateId⟩).value l0 = none := by
      unfold S.value at hv ⊢; rw [g5]; exact hv
    have hcl : (attach { s1 with learnts := s1.learnts ++ [s1.nextId] } ⟨l0, b, rest, some s1.stateId⟩).cls s1.nextId = ⟨l0, b, rest, some s1.stateId⟩ := by rw [g1, upd_same]
    have hatt : s1.nextId ∈ (attach { s1 with learnts := s1.learnts ++ [s1.nextId] } ⟨l0, b, rest, some s1.stateId⟩).att := by
      unfold S.att; rw [g2, g3]; simp
    have hdla : (attach { s1 with learnts := s1.learnts ++ [s1.nextId] } ⟨l0, b, rest, some s1.stateId⟩).dl = bt := by
      unfold S.dl; rw [g9]; exact hcut.dl
    have hp := hat.enqueueC (l := l0) (c := s1.nextId) hva hatt (by rw [hcl, hk]; exact List.mem_cons_self) (by rw [hcl]; exact fun _ => rfl)
      (by
        rw [hcl, hk, g8]
        intro q hq hne
        rcases List.mem_cons.1 hq with rfl | hq
        · exact absurd rfl hne
        · exact hfls q hq)
    refine ⟨⟨hp.d, hp.t, hp.m, hp.q, ?_, hp.a.mono fun c hc _ _ _ _ _ e _ => absurd (h1.a.idlt c (by rw [← show _ = s1.ams from g20]; exact hc)) (by rw [e]; exact Nat.lt_irrefl _)⟩, hxa.enqueue hat.t hva (by simp), ?_, ?_, ?_⟩
    · refine hp.w.mono ?_
      intro c' hc' w hw hpw hec _
      subst hec
      have hcl' : (enqueue (attach { s1 with learnts := s1.learnts ++ [s1.nextId] } ⟨l0, b, rest, some s1.stateId⟩) l0 (some s1.nextId)).cls s1.nextId = ⟨l0, b, rest, some s1.stateId⟩ := hcl
      rw [hcl'] at hw ⊢
      refine ⟨l0, by rw [hk]; exact List.mem_cons_self, List.mem_cons_self, ?_, fun hr => ?_⟩
      rotate_left
      · rcases hw with hw | hw
        · exact absurd (proc_subset _ hpw) (by rw [hw]; exact hp.t.not_both List.mem_cons_self)
        · have hwb : neg w = neg b := by rw [hw]
          rw [hwb]
          exact learn_entry _ _ hr
      have hlev : (enqueue (attach { s1 with learnts := s1.learnts ++ [s1.nextId] } ⟨l0, b, rest, some s1.stateId⟩) l0 (some s1.nextId)).level (l0 / 2) = bt :=
        (upd_same _ _ _).trans hdla
      rcases hw with hw | hw
      · rw [hw]
      · rw [hw]
        have hbo : b ∈ out := by rw [ho]; simp
        have hnb := hfls b hbo
        have := enqueue_level hat.t (Or.inl hva) (some s1.nextId) (x := neg b) (by rw [g8]; exact hnb)
        rw [neg_var] at this
        rw [hlev, this, g6]
        show bt ≤ s1.level (b / 2)
        rw [hcut.level, ← ha.cons b rest ho]
    · have e1 : Evo s1 (enqueue (attach { s1 with learnts := s1.learnts ++ [s1.nextId] } ⟨l0, b, rest, some s1.stateId⟩) l0 (some s1.nextId)) := by
        refine ⟨g13, g2, g18, g19, ?_, ?_, ?_, g20, fun c => ?_⟩
        · intro c hc
          show ((attach _ _).cls c).lits.Perm _
          rw [g1, upd_ne]
          rintro rfl
          exact Nat.lt_irrefl _ (h1.d.idlt _ (List.mem_append_left _ hc))
        · intro c hc
          have hc : c ∈ (attach { s1 with learnts := s1.learnts ++ [s1.nextId] } ⟨l0, b, rest, some s1.stateId⟩).learnts := hc
          rw [g3] at hc
          show (_ ∧ ((attach _ _).cls c).lits.Perm _ ∧ ((attach _ _).cls c).learntOn = _) ∨ ((attach _ _).cls c).learntOn = _
          rcases List.mem_append.1 hc with hc | hc
          · left
            rw [g1, upd_ne]
            · exact ⟨hc, .refl _, rfl⟩
            · rintro rfl
              exact Nat.lt_irrefl _ (h1.d.idlt _ (List.mem_append_right _ hc))
          · right
            rw [List.mem_singleton] at hc; subst hc
            rw [hcl]
        · show s1.units <+: (attach _ _).units
          rw [g15]
          exact List.prefix_refl _
        · show AmSim _ ((attach _ _).am c)
          rw [g21]; exact .refl _
      exact hev.trans e1
    · exact g14.trans hcut.ok
    · exact g16.trans hcut.conflict

/-! ## removal of clauses -/

theorem del_mem {w : Nat → List (Nat × Nat)} {i a b l : Nat} {e : Nat × Nat} :
    e ∈ (upd (upd w (neg a) ((w (neg a)).filter fun e => e.1 != i)) (neg b) ((upd w (neg a) ((w (neg a)).filter fun e => e.1 != i) (neg b)).filter fun e => e.1 != i)) l ↔
      e ∈ w l ∧ ¬ (e.1 = i ∧ (l = neg a ∨ l = neg b)) := by
  by_cases e1 : l = neg b
  · subst e1
    rw [upd_same]
    by_cases e2 : neg b = neg a
    · rw [e2, upd_same]; simp
    · rw [upd_ne _ _ e2]; simp
  · rw [upd_ne _ _ e1]
    by_cases e2 : l = neg a
    · subst e2
      rw [upd_same]
      simp
    · rw [upd_ne _ _ e2]
      simp [e1, e2]

theorem del_sub (w : Nat → List (Nat × Nat)) (i a b l : Nat) :
    ((upd (upd w (neg a) ((w (neg a)).filter fun e => e.1 != i)) (neg b) ((upd w (neg a) ((w (neg a)).filter fun e => e.1 != i) (neg b)).filter fun e => e.1 != i)) l).Sublist (w l) := by
  by_cases e1 : l = neg b
  · subst e1
    rw [upd_same]
    by_cases e2 : neg b = neg a
    · rw [e2, upd_same]; exact List.filter_sublist.trans List.filter_sublist
    · rw [upd_ne _ _ e2]; exact List.filter_sublist
  · rw [upd_ne _ _ e1]
    by_cases e2 : l = neg a
    · subst e2
      rw [upd_same]
      exact List.filter_sublist
    · rw [upd_ne _ _ e2]

theorem detach_fields (s : S) (i : Nat) : ∃ w wb, detach s i = { s with watches := w, watchesBin := wb } := by
  unfold detach
  dsimp only
  split
  · exact ⟨_, _, rfl⟩
  · exact ⟨_, _, rfl⟩

theorem detach_spec {Φ : (Nat → Bool) → Prop} {J : Nat → Prop} {s : S} {ex : Nat → Nat → Prop} (h : PI Φ J s ex) {i : Nat} (him : s.am i = none)
    (hnr : ∀ l rest, (l :: rest) <:+ s.trail → 0 < s.level (l / 2) → s.reason (l / 2) ≠ some i) {C L : List Nat} (hn : (C ++ L).Nodup)
    (hm : ∀ x, x ∈ C ++ L ↔ x ∈ s.att ∧ x ≠ i) : PI Φ J (detach { s with clauses := C, learnts := L } i) ex := by
  have hW : ∀ l e, e ∈ (detach { s with clauses := C, learnts := L } i).watches l ↔ e ∈ s.watches l ∧ ¬ ((s.cls i).rest ≠ [] ∧ e.1 = i ∧ (l = neg (s.cls i).a ∨ l = neg (s.cls i).b)) := by
    intro l e
    unfold detach
    dsimp only
    by_cases hk : (s.cls i).rest = []
    · rw [if_pos (by simp [hk])]
      simp [hk]
    · rw [if_neg (by simpa using hk)]
      simp only [del_mem]
      simp [hk]
  have hB : ∀ l e, e ∈ (detach { s with clauses := C, learnts := L } i).watchesBin l ↔ e ∈ s.watchesBin l ∧ ¬ ((s.cls i).rest = [] ∧ e.1 = i ∧ (l = neg (s.cls i).a ∨ l = neg (s.cls i).b)) := by
    intro l e
    unfold detach
    dsimp only
    by_cases hk : (s.cls i).rest = []
    · rw [if_pos (by simp [hk])]
      simp only [del_mem]
      simp [hk]
    · rw [if_neg (by simpa using hk)]
      simp [hk]
  have hsubl : ∀ l, ((detach { s with clauses := C, learnts := L } i).watches l).Sublist (s.watches l) := by
    intro l
    unfold detach
    dsimp only
    split
    · exact List.Sublist.refl _
    · exact del_sub _ _ _ _ _
  obtain ⟨w, wb, hd⟩ := detach_fields { s with clauses := C, learnts := L } i
  rw [hd] at hW hB hsubl ⊢
  dsimp only at hW hB hsubl
  have hnot : ∀ c, c ∈ C ++ L → c ∈ s.att := fun c hc => ((hm c).1 hc).1
  refine ⟨⟨?_, hn, ?_, ?_, ?_, ?_, ?_, ?_, ?_, h.d.seen0, ?_⟩, ⟨h.t.tval, h.t.trange, h.t.tlev, h.t.tdup, ?_, h.t.tlimS, h.t.tlimLe, h.t.heapAll, h.t.qle⟩,
    ⟨fun c hc => h.m.db c (hnot c hc), h.m.imp0, fun c hc => h.m.jcl c (hnot c hc), h.m.jtr⟩, h.q, fun c hc w' hw' hp hex => by
      obtain ⟨c1, c2⟩ := (hm c).1 hc
      obtain ⟨y, h1, h2, h3, h4⟩ := h.w c c1 w' hw' hp hex
      exact ⟨y, h1, h2, h3, fun hr => (hW _ _).2 ⟨h4 hr, fun hh => c2 hh.2.1⟩⟩,
    ⟨h.a.idlt, h.a.new, h.a.nd, h.a.isam, fun c hc => h.a.att c (hnot c hc), fun l c b hb => h.a.bin l c b ((hB l (c, b)).1 hb).1, h.a.nodup, h.a.pos, h.a.range, h.a.two,
      fun l c b k hb hk => h.a.wm l c b k ((hW l (c, b)).1 hb).1 hk, fun c hc k hk x hx => (by
        obtain ⟨e, he, h1⟩ := List.mem_map.1 (h.a.wa c hc k hk x hx)
        refine List.mem_map.2 ⟨e, (hW _ _).2 ⟨he, fun hh => ?_⟩, h1⟩
        have : c = i := h1.symm.trans hh.2.1
        rw [this, him] at hk; cases hk), h.a.sem, h.a.jcl, h.a.w, h.a.full⟩⟩
  · exact fun c hc => h.d.idlt c (hnot c hc)
  · exact fun c hc => h.d.clNodup c (hnot c hc)
  · exact fun c hc => h.d.range c (hnot c hc)
  · exact fun l => (h.d.wNodup l).sublist ((hsubl l).map _)
  · intro l c b hb hcm
    obtain ⟨h1, h2⟩ := (hW l (c, b)).1 hb
    obtain ⟨k1, k2, k3, k4⟩ := h.d.wMem l c b h1 hcm
    refine ⟨(hm c).2 ⟨k1, ?_⟩, k2, k3, k4⟩
    rintro rfl
    apply h2
    refine ⟨k2, rfl, ?_⟩
    rcases k3 with k3 | k3 <;> rw [← k3, neg_neg] <;> simp
  · intro c hc hr w' hw'
    obtain ⟨c1, c2⟩ := (hm c).1 hc
    obtain ⟨e, he, h1⟩ := List.mem_map.1 (h.d.wAll c c1 hr w' hw')
    exact List.mem_map.2 ⟨e, (hW _ _).2 ⟨he, fun hh => c2 (h1.symm.trans hh.2.1)⟩, h1⟩
  · intro l c b hb
    obtain ⟨h1, h2⟩ := (hB l (c, b)).1 hb
    obtain ⟨k1, k2, k3⟩ := h.d.bMem l c b h1
    refine ⟨(hm c).2 ⟨k1, ?_⟩, k2, k3⟩
    rintro rfl
    apply h2
    refine ⟨k2, rfl, ?_⟩
    rcases k3 with ⟨k3, _⟩ | ⟨k3, _⟩ <;> rw [← k3, neg_neg] <;> simp
  · intro c hc hr w' hw'
    obtain ⟨c1, c2⟩ := (hm c).1 hc
    obtain ⟨e, he, h1⟩ := List.mem_map.1 (h.d.bAll c c1 hr w' hw')
    exact List.mem_map.2 ⟨e, (hB _ _).2 ⟨he, fun hh => c2 (h1.symm.trans hh.2.1)⟩, h1⟩
  · intro c hc hr
    obtain ⟨c1, c2⟩ := (hm c).1 hc
    rcases h.d.wOne c c1 hr with h1 | h1
    · exact Or.inl ((hW _ _).2 ⟨h1, fun hh => c2 hh.2.1⟩)
    · exact Or.inr ((hW _ _).2 ⟨h1, fun hh => c2 hh.2.1⟩)
  · intro l rest hl hp
    have h1 := h.t.treason l rest hl hp
    have h2 := hnr l rest hl hp
    show ReasonOk _ (s.reason (l / 2)) l rest
    cases hrs : s.reason (l / 2) with
    | none => rw [hrs] at h1; exact h1
    | some c =>
      rw [hrs] at h1 h2
      refine ⟨fun hcm => ?_, h1.2⟩
      obtain ⟨a1, a2, a3, a4⟩ := h1.1 hcm
      exact ⟨(hm c).2 ⟨a1, fun e => h2 (by rw [e])⟩, a2, a3, a4⟩

/-- states that differ in the learnt clauses and watcher lists only -/
structure OnlyL (s s' : S) : Prop where
  eq : ∃ L w wb, s' = { s with learnts := L, watches := w, watchesBin := wb } ∧ L.Sublist s.learnts

theorem OnlyL.evo {s s' : S} (h : OnlyL s s') : Evo s s' := by
  obtain ⟨L, w, wb, rfl, hs⟩ := h.eq
  exact ⟨rfl, rfl, rfl, rfl, fun _ _ => .refl _, fun c hc => Or.inl ⟨hs.subset hc, .refl _, rfl⟩, List.prefix_refl _, rfl, fun _ => .refl _⟩

theorem reduceLoop_spec {Φ : (Nat → Bool) → Prop} {J : Nat → Prop} (del : Nat → Bool) : ∀ (is kept : List Nat) (s : S), PI Φ J s (fun _ _ => False) → s.learnts = kept ++ is →
    PI Φ J (reduceLoop del s is kept) (fun _ _ => False) ∧ OnlyL s (reduceLoop del s is kept)
  | [], kept, s, h, hl => by
    have e : reduceLoop del s [] kept = s := by
      unfold reduceLoop
      rw [List.append_nil] at hl
      rw [← hl]
    rw [e]
    exact ⟨h, ⟨s.learnts, s.watches, s.watchesBin, rfl, List.Sublist.refl _⟩⟩
  | i :: is, kept, s, h, hl => by
    unfold reduceLoop
    by_cases hc : del i = true ∧ (s.cls i).rest ≠ [] ∧ locked s i = false
    · rw [if_pos hc]
      have hnd := h.d.nodupAtt
      unfold S.att at hnd
      rw [hl] at hnd
      have hp : (s.clauses ++ (kept ++ i :: is)).Perm (i :: (s.clauses ++ (kept ++ is))) := by
        have := List.perm_middle (l₁ := s.clauses ++ kept) (a := i) (l₂ := is)
        simpa [List.append_assoc] using this
      have hnd' := hp.nodup_iff.1 hnd
      rw [List.nodup_cons] at hnd'
      have him : s.am i = none := h.a.att i (by unfold S.att; rw [hl]; simp)
      have h1 := detach_spec (i := i) (C := s.clauses) (L := kept ++ is) h him ?_ hnd'.2 ?_
      · have hlr : (detach { s with learnts := kept ++ is } i).learnts = kept ++ is := by
          obtain ⟨w, wb, hd⟩ := detach_fields { s with learnts := kept ++ is } i
          rw [hd]
        obtain ⟨r1, r2⟩ := reduceLoop_spec del is kept _ h1 hlr
        refine ⟨r1, ?_⟩
        obtain ⟨L, w, wb, he, hs⟩ := r2.eq
        obtain ⟨w2, wb2, hd⟩ := detach_fields { s with learnts := kept ++ is } i
        refine ⟨L, w, wb, ?_, ?_⟩
        · have he' := he
          rw [show detach { s with clauses := s.clauses, learnts := kept ++ is } i = detach { s with learnts := kept ++ is } i from rfl] at he'
          rw [he', hd]
        · rw [hl]
          rw [show (detach { s with clauses := s.clauses, learnts := kept ++ is } i).learnts = kept ++ is from hlr] at hs
          exact hs.trans (List.Sublist.append_left (List.sublist_cons_self _ _) _)
      · intro l rest hsf hp hr
        have ht := h.t.treason l rest hsf hp
        rw [hr] at ht
        have ha := (ht.1 him).2.2.1 hc.2.1
        have : locked s i = true := by
          unfold locked
          rw [ha, hr, (h.t.tval l).2 (hsf.subset List.mem_cons_self)]
          simp
        rw [hc.2.2] at this; cases this
      · intro x
        unfold S.att
        rw [hl, hp.mem_iff, List.mem_cons]
        constructor
        · intro hx
          exact ⟨Or.inr hx, by rintro rfl; exact hnd'.1 hx⟩
        · rintro ⟨h1 | h1, h2⟩
          · exact absurd h1 h2
          · exact h1
    · rw [if_neg hc]
      exact reduceLoop_spec del is (kept ++ [i]) s h (by rw [hl]; simp)

theorem reduceDB_spec {Φ : (Nat → Bool) → Prop} {J : Nat → Prop} (del : Nat → Bool) {s : S} (h : PI Φ J s (fun _ _ => False)) :
    PI Φ J (reduceDB del s) (fun _ _ => False) ∧ OnlyL s (reduceDB del s) := reduceLoop_spec del s.learnts [] s h rfl

/-! ## decisions -/

/-- a new level is opened -/
theorem PI.push {Φ : (Nat → Bool) → Prop} {J : Nat → Prop} {s : S} (h : PI Φ J s (fun _ _ => False)) (hq : s.qhead = s.trail.length) :
    PI Φ J { s with trailLim := s.trail.length :: s.trailLim } (fun _ _ => False) := by
  refine ⟨⟨h.d.idlt, h.d.nodupAtt, h.d.clNodup, h.d.range, h.d.wNodup, h.d.wMem, h.d.wAll, h.d.bMem, h.d.bAll, h.d.seen0, h.d.wOne⟩,
    ⟨h.t.tval, h.t.trange, ?_, h.t.tdup, ?_, ?_, ?_, h.t.heapAll, h.t.qle⟩, ⟨h.m.db, h.m.imp0, h.m.jcl, h.m.jtr⟩, ?_, h.w, h.a.congr rfl⟩
  · intro l rest hl
    have h1 := h.t.tlev l rest hl
    have h2 : rest.length + 1 ≤ s.trail.length := hl.length_le
    show s.level (l / 2) = ((s.trail.length :: s.trailLim).filter (· ≤ rest.length)).length
    rw [List.filter_cons, if_neg (by simp only [decide_eq_true_eq]; omega)]
    exact h1
  · intro l rest hl hp
    have h1 := h.t.treason l rest hl hp
    show ReasonOk _ (s.reason (l / 2)) l rest
    cases hrs : s.reason (l / 2) with
    | none => rw [hrs] at h1; exact List.mem_cons_of_mem _ h1
    | some c => rw [hrs] at h1; exact h1
  · show (s.trail.length :: s.trailLim).Pairwise (· ≥ ·)
    rw [List.pairwise_cons]
    exact ⟨h.t.tlimLe, h.t.tlimS⟩
  · intro x hx
    rcases List.mem_cons.1 hx with rfl | hx
    · exact Nat.le_refl _
    · exact h.t.tlimLe x hx
  · intro l rest hl hq'
    have h2 := hl.length_le
    have h2 : rest.length + 1 ≤ s.trail.length := h2
    have hq' : s.qhead ≤ rest.length := hq'
    omega

theorem decide_spec {Φ : (Nat → Bool) → Prop} {asm : List Nat} {s : S} {p : Nat} (h : PI Φ TT s (fun _ _ => False)) (hx : SX asm s) (hq : s.qhead = s.trail.length) (hv : s.value p = none)
    (hn : p / 2 < s.nVars) (hp : asm[s.dl]? = some p ∨ asm.length ≤ s.dl) :
    PI Φ TT (decideLit s p) (fun _ _ => False) ∧ SX asm (decideLit s p) ∧ Evo s (decideLit s p) := by
  have h1 := h.push hq
  have h2 := h1.enqueue (l := p) (r := none) (Or.inl hv) hn (fun _ => List.mem_cons_self) (fun e => by cases e) trivial (fun _ e => by cases e)
  refine ⟨h2, ?_, ⟨rfl, rfl, rfl, rfl, fun _ _ => .refl _, fun _ hc => Or.inl ⟨hc, .refl _, rfl⟩, List.prefix_refl _, rfl, fun _ => .refl _⟩⟩
  have hl := fun x hx => enqueue_level h1.t (Or.inl hv) none (x := x) hx
  have hlev : (decideLit s p).level (p / 2) = s.dl + 1 := upd_same _ _ _
  refine ⟨fun x hm => ?_, hx.hr, fun x hm h1' h2' h3' => ?_, fun i q hi hq' => ?_⟩
  · obtain ⟨k1, k2⟩ := hx.un x hm
    exact ⟨List.mem_cons_of_mem _ k1, (hl x k1).trans k2⟩
  · rcases List.mem_cons.1 hm with rfl | hm
    · rw [hlev] at h3'
      rcases hp with hp | hp
      · exact List.mem_of_getElem? hp
      · omega
    · have e1 : (decideLit s p).level (x / 2) = s.level (x / 2) := hl x hm
      have e2 : (decideLit s p).reason (x / 2) = s.reason (x / 2) := upd_ne _ _ (h.t.var_ne hv hm)
      rw [e1] at h1' h3'
      rw [e2] at h2'
      exact hx.a1 x hm h1' h2' h3'
  · have hi : i < s.dl + 1 := hi
    by_cases e : i = s.dl
    · subst e
      rcases hp with hp | hp
      · rw [hp] at hq'; cases hq'
        exact ⟨List.mem_cons_self, by rw [hlev]⟩
      · rw [List.getElem?_eq_none hp] at hq'; cases hq'
    · obtain ⟨k1, k2⟩ := hx.a2 i q (by omega) hq'
      exact ⟨List.mem_cons_of_mem _ k1, by rw [show (decideLit s p).level (q / 2) = s.level (q / 2) from hl q k1]; exact k2⟩

theorem asmLoop_spec {Φ : (Nat → Bool) → Prop} {asm : List Nat} : ∀ (ps : List Nat) (s : S), PI Φ TT s (fun _ _ => False) → SX asm s → s.qhead = s.trail.length → ps = asm.drop s.dl →
    PI Φ TT (asmLoop s ps).1 (fun _ _ => False) ∧ SX asm (asmLoop s ps).1 ∧ (∃ L, (asmLoop s ps).1 = { s with trailLim := L }) ∧
    match (asmLoop s ps).2 with
    | .free => asm.length ≤ (asmLoop s ps).1.dl
    | .next p => asm[(asmLoop s ps).1.dl]? = some p ∧ s.value p = none
    | .failed p => asm[(asmLoop s ps).1.dl]? = some p ∧ s.value p = some false
  | [], s, h, hx, hq, hps => by
    unfold asmLoop
    refine ⟨h, hx, ⟨s.trailLim, rfl⟩, ?_⟩
    exact List.drop_eq_nil_iff.1 hps.symm
  | p :: ps, s, h, hx, hq, hps => by
    have hget : asm[s.dl]? = some p := by
      have := congrArg (fun l : List Nat => l[0]?) hps
      simp only [List.getElem?_cons_zero, List.getElem?_drop, Nat.add_zero] at this
      exact this.symm
    unfold asmLoop
    cases hv : s.value p with
    | none => exact ⟨h, hx, ⟨s.trailLim, rfl⟩, hget, hv⟩
    | some b =>
      cases b with
      | false => exact ⟨h, hx, ⟨s.trailLim, rfl⟩, hget, hv⟩
      | true =>
        dsimp only
        have h1 := h.push hq
        have hpt := (h.t.tval p).1 hv
        have hx1 : SX asm { s with trailLim := s.trail.length :: s.trailLim } := by
          refine ⟨hx.un, hx.hr, hx.a1, fun i q hi hq' => ?_⟩
          have hi : i < s.dl + 1 := hi
          by_cases e : i = s.dl
          · subst e
            rw [hget] at hq'; cases hq'
            exact ⟨hpt, Nat.le_succ_of_le (h.t.lev_le hpt)⟩
          · exact hx.a2 i q (by omega) hq'
        obtain ⟨r1, r2, ⟨L, r3⟩, r4⟩ := asmLoop_spec ps { s with trailLim := s.trail.length :: s.trailLim } h1 hx1 hq (by
          show ps = asm.drop (s.dl + 1)
          rw [← List.tail_drop, ← hps]; rfl)
        exact ⟨r1, r2, ⟨L, r3⟩, r4⟩

theorem pick_spec {Φ : (Nat → Bool) → Prop} {asm : List Nat} {s : S} (ch : Choice) (h : PI Φ TT s (fun _ _ => False)) (hx : SX asm s) (hq : s.qhead = s.trail.length)
    (ha : asm.length ≤ s.dl) :
    match pickBranch ch s with
    | (s', none) => s' = { s with heap := [] } ∧ ∀ v < s.nVars, s.val v ≠ none
    | (s', some p) => PI Φ TT (decideLit s' p) (fun _ _ => False) ∧ SX asm (decideLit s' p) ∧ Evo s (decideLit s' p) ∧ (decideLit s' p).ok = s.ok ∧ (decideLit s' p).conflict = s.conflict := by
  unfold pickBranch
  have hmem : ∀ v, v ∈ ch.pick.f s.heap ↔ v ∈ s.heap := fun v => (ch.pick.perm _).mem_iff
  have hsplit := List.takeWhile_append_dropWhile (p := fun v => (s.val v).isSome) (l := ch.pick.f s.heap)
  have htw : ∀ v ∈ (ch.pick.f s.heap).takeWhile fun v => (s.val v).isSome, s.val v ≠ none := by
    intro v hv e
    have := List.all_eq_true.1 (List.all_takeWhile (p := fun v => (s.val v).isSome) (l := ch.pick.f s.heap)) v hv
    rw [e] at this; cases this
  cases hd : (ch.pick.f s.heap).dropWhile fun v => (s.val v).isSome with
  | nil =>
    refine ⟨rfl, fun v hv e => ?_⟩
    have h1 := (hmem v).2 (h.t.heapAll v hv e)
    rw [← hsplit, hd, List.append_nil] at h1
    exact htw v h1 e
  | cons v vs =>
    dsimp only
    have hv : s.val v = none := by
      have := List.head?_dropWhile_not (p := fun v => (s.val v).isSome) (l := ch.pick.f s.heap)
      rw [hd] at this
      simpa using this
    have hvm : v ∈ s.heap := (hmem v).1 (by rw [← hsplit, hd]; simp)
    obtain ⟨p, hp, hpv⟩ : ∃ p, (if ch.sign then 2 * v + 1 else 2 * v) = p ∧ p / 2 = v := by
      refine ⟨_, rfl, ?_⟩
      split <;> omega
    rw [hp]
    have hpn : s.value p = none := by rw [value_none, hpv]; exact hv
    obtain ⟨d1, d2, d3⟩ := decide_spec h hx hq hpn (by rw [hpv]; exact hx.hr v hvm) (Or.inr ha)
    have he : decideLit { s with heap := vs } p = { decideLit s p with heap := vs } := rfl
    rw [he]
    refine ⟨?_, ⟨d2.un, fun x hm => ?_, d2.a1, d2.a2⟩, ⟨d3.nVars, d3.clauses, d3.stateId, d3.valid, d3.old, d3.lr, d3.units, d3.ams, d3.am⟩, rfl, rfl⟩
    · refine ⟨⟨d1.d.idlt, d1.d.nodupAtt, d1.d.clNodup, d1.d.range, d1.d.wNodup, d1.d.wMem, d1.d.wAll, d1.d.bMem, d1.d.bAll, d1.d.seen0, d1.d.wOne⟩,
        ⟨d1.t.tval, d1.t.trange, d1.t.tlev, d1.t.tdup, d1.t.treason, d1.t.tlimS, d1.t.tlimLe, ?_, d1.t.qle⟩, ⟨d1.m.db, d1.m.imp0, d1.m.jcl, d1.m.jtr⟩, d1.q, d1.w, d1.a.congr rfl⟩
      intro x hxn hx0
      have hx0 : upd s.val (p / 2) (some (p % 2 == 0)) x = none := hx0
      by_cases e : x = p / 2
      · subst e; rw [upd_same] at hx0; cases hx0
      · rw [upd_ne _ _ e] at hx0
        have h1 := (hmem x).2 (h.t.heapAll x hxn hx0)
        rw [← hsplit, hd] at h1
        rcases List.mem_append.1 h1 with h1 | h1
        · exact absurd hx0 (htw x h1)
        · rcases List.mem_cons.1 h1 with h1 | h1
          · exact absurd (h1.trans hpv.symm) e
          · exact h1
    · exact hx.hr x ((hmem x).1 (by rw [← hsplit, hd]; exact List.mem_append_right _ (List.mem_cons_of_mem _ hm)))

/-! ## final analysis -/

theorem Tr.upper {s : S} (h : Tr s) {lim0 : Nat} (hl : s.trailLim.getLast? = some lim0) :
    ∃ base, s.trail = s.trail.take (s.trail.length - lim0) ++ base ∧ (∀ l ∈ base, s.level (l / 2) = 0) ∧
      ∀ l rest, (l :: rest) <:+ s.trail.take (s.trail.length - lim0) → (l :: (rest ++ base)) <:+ s.trail ∧ 0 < s.level (l / 2) := by
  have hmin : ∀ x ∈ s.trailLim, lim0 ≤ x := by
    obtain ⟨pre, e⟩ := List.getLast?_eq_some_iff.1 hl
    intro x hx
    have hS := h.tlimS
    rw [e] at hx hS
    rcases List.mem_append.1 hx with hx | hx
    · exact (List.pairwise_append.1 hS).2.2 x hx lim0 (by simp)
    · rw [List.mem_singleton] at hx; omega
  have hmem : lim0 ∈ s.trailLim := List.mem_of_getLast? hl
  have hle := h.tlimLe lim0 hmem
  have hb : (s.trail.drop (s.trail.length - lim0)).length = lim0 := by rw [List.length_drop]; omega
  refine ⟨s.trail.drop (s.trail.length - lim0), (List.take_append_drop _ _).symm, fun l hl => ?_, fun l rest hsf => ?_⟩
  · obtain ⟨rest, hr⟩ := mem_suffix hl
    rw [h.tlev l rest (hr.trans (List.drop_suffix _ _)), List.length_eq_zero_iff, List.filter_eq_nil_iff]
    intro x hx
    have h1 := hmin x hx
    have h2 := hr.length_le
    rw [List.length_cons, hb] at h2
    simp only [decide_eq_true_eq]; omega
  · have hsf' : (l :: (rest ++ s.trail.drop (s.trail.length - lim0))) <:+ s.trail := by
      obtain ⟨pre, e⟩ := hsf
      refine ⟨pre, ?_⟩
      rw [← List.cons_append, ← List.append_assoc, e, List.take_append_drop]
    refine ⟨hsf', ?_⟩
    rw [h.tlev l _ hsf']
    refine List.length_pos_of_mem (a := lim0) (List.mem_filter.2 ⟨hmem, ?_⟩)
    rw [List.length_append, hb]
    simp

/-- marking the literals of a clause in `analyzeFinal` -/
def markAll (s : S) (seen : Nat → Bool) (ls : List Nat) : Nat → Bool := ls.foldl (fun f x => if 0 < s.level (x / 2) then upd f (x / 2) true else f) seen

theorem markAll_true (s : S) (v : Nat) : ∀ (ls : List Nat) (seen : Nat → Bool), markAll s seen ls v = true ↔ seen v = true ∨ ∃ x ∈ ls, x / 2 = v ∧ 0 < s.level v
  | [], seen => by simp [markAll]
  | y :: ls, seen => by
    show markAll s (if 0 < s.level (y / 2) then upd seen (y / 2) true else seen) ls v = true ↔ _
    rw [markAll_true s v ls]
    by_cases hl : 0 < s.level (y / 2)
    · rw [if_pos hl]
      by_cases e : v = y / 2
      · subst e
        rw [upd_same]
        simp [hl]
      · rw [upd_ne _ _ e]
        constructor
        · rintro (h | ⟨x, hx, h⟩)
          · exact Or.inl h
          · exact Or.inr ⟨x, List.mem_cons_of_mem _ hx, h⟩
        · rintro (h | ⟨x, hx, h1, h2⟩)
          · exact Or.inl h
          · rcases List.mem_cons.1 hx with rfl | hx
            · exact absurd h1.symm e
            · exact Or.inr ⟨x, hx, h1, h2⟩
    · rw [if_neg hl]
      constructor
      · rintro (h | ⟨x, hx, h⟩)
        · exact Or.inl h
        · exact Or.inr ⟨x, List.mem_cons_of_mem _ hx, h⟩
      · rintro (h | ⟨x, hx, h1, h2⟩)
        · exact Or.inl h
        · rcases List.mem_cons.1 hx with rfl | hx
          · rw [h1] at hl; exact absurd h2 hl
          · exact Or.inr ⟨x, hx, h1, h2⟩

structure FinI (Φ : (Nat → Bool) → Prop) (s : S) (p : Nat) (ts : List Nat) (seen : Nat → Bool) (confl : List Nat) : Prop where
  sn : ∀ v, seen v = true → v = p / 2 ∨ ∃ t ∈ ts, t / 2 = v
  dec : ∀ x ∈ confl, x = p ∨ (neg x ∈ s.trail ∧ 0 < s.level (x / 2) ∧ s.reason (x / 2) = none)
  hd : p ∈ confl
  imp : ∀ u, Φ u → (∀ t ∈ ts, seen (t / 2) = true → lv u t = true) → Sat u confl

theorem finalLoop_spec {Φ : (Nat → Bool) → Prop} {J : Nat → Prop} {s : S} {ex : Nat → Nat → Prop} {exr : Nat → Prop} (hdb : Db s) (hm : Sem Φ J s) (ha : AmI Φ J s ex exr) (ht : Tr s) {p : Nat} {base up : List Nat} (hb : ∀ l ∈ base, s.level (l / 2) = 0)
    (hup : ∀ l rest, (l :: rest) <:+ up → (l :: (rest ++ base)) <:+ s.trail ∧ 0 < s.level (l / 2)) : ∀ (ts : List Nat) (seen : Nat → Bool) (confl : List Nat), ts <:+ up →
    FinI Φ s p ts seen confl → FinI Φ s p [] (finalLoop s ts seen confl).1 (finalLoop s ts seen confl).2
  | [], seen, confl, _, h => h
  | t :: ts, seen, confl, hsf, h => by
    have hsf' : ts <:+ up := (List.suffix_cons _ _).trans hsf
    obtain ⟨hs, hl⟩ := hup t ts hsf
    unfold finalLoop
    by_cases hsn : seen (t / 2) = true
    · rw [if_pos hsn]
      have hrs := ht.treason t _ hs hl
      cases hr : s.reason (t / 2) with
      | none =>
        dsimp only
        refine finalLoop_spec hdb hm ha ht hb hup ts _ _ hsf' ⟨fun v hv => ?_, fun x hx => ?_, List.mem_append_left _ h.hd, fun u hu hall => ?_⟩
        · by_cases e : v = t / 2
          · subst e; rw [upd_same] at hv; cases hv
          · rw [upd_ne _ _ e] at hv
            rcases h.sn v hv with h | ⟨x, hx, hxv⟩
            · exact Or.inl h
            · rcases List.mem_cons.1 hx with rfl | hx
              · exact absurd hxv.symm e
              · exact Or.inr ⟨x, hx, hxv⟩
        · rcases List.mem_append.1 hx with hx | hx
          · exact h.dec x hx
          · rw [List.mem_singleton] at hx; subst hx
            rw [neg_neg, neg_var]
            exact Or.inr ⟨hs.subset List.mem_cons_self, hl, hr⟩
        · by_cases e : lv u t = true
          · obtain ⟨q, hq, hv⟩ := h.imp u hu fun x hx hsx => by
              rcases List.mem_cons.1 hx with rfl | hx
              · exact e
              · refine hall x hx ?_
                rw [upd_ne]
                · exact hsx
                · intro e2
                  have hxt : x = t := ht.same_var (hs.subset (List.mem_cons_of_mem _ (List.mem_append_left _ hx))) (hs.subset List.mem_cons_self) e2
                  exact ht.tdup t _ hs hl (List.mem_append_left _ (hxt ▸ hx))
            exact ⟨q, List.mem_append_left _ hq, hv⟩
          · refine ⟨neg t, by simp, ?_⟩
            rw [lv_neg]; simpa using e
      | some c =>
        dsimp only
        rw [hr] at hrs
        obtain ⟨ls, hls, hls1, hls2⟩ : ∃ ls, finLits s c = ls ∧ (∀ q ∈ ls, q ≠ t → neg q ∈ ts ++ base) ∧ ∀ u, Φ u → Sat u (t :: ls) := by
          refine ⟨_, rfl, ?_⟩
          unfold finLits
          cases ham : s.am c with
          | some k =>
            dsimp only
            refine ⟨fun q hq _ => ?_, fun u hu => ?_⟩
            · obtain ⟨h1, h2⟩ := (amTail_mem ht).1 hq
              exact (hrs.2 k ham).2.2.2 _ h1 h2
            · have := ht.tail_sat hdb hm ha hs hrs hu
              unfold tailOf at this
              rw [ham] at this
              exact this
          | none =>
            dsimp only
            obtain ⟨a1, a2, a3, a4⟩ := hrs.1 ham
            split
            · exact ⟨fun q hq hne => a4 q hq hne, fun u hu => (hm.db c a1 u hu).imp fun q hq => ⟨List.mem_cons_of_mem _ hq.1, hq.2⟩⟩
            · rename_i hne
              refine ⟨fun q hq => a4 q (List.mem_cons_of_mem _ hq), fun u hu => ?_⟩
              obtain ⟨q, hq, hv⟩ := hm.db c a1 u hu
              rcases List.mem_cons.1 hq with rfl | hq
              · exact ⟨_, by rw [a3 hne]; exact List.mem_cons_self, hv⟩
              · exact ⟨q, List.mem_cons_of_mem _ hq, hv⟩
        rw [hls]
        change FinI Φ s p [] (finalLoop s ts (upd (markAll s seen ls) (t / 2) false) confl).1 (finalLoop s ts (upd (markAll s seen ls) (t / 2) false) confl).2
        have hbelow : ∀ q ∈ ls, q ≠ t → 0 < s.level (q / 2) → neg q ∈ ts := by
          intro q hq hne hlq
          rcases List.mem_append.1 (hls1 q hq hne) with h | h
          · exact h
          · have := hb _ h; rw [neg_var] at this; omega
        refine finalLoop_spec hdb hm ha ht hb hup ts _ _ hsf' ⟨fun v hv => ?_, h.dec, h.hd, fun u hu hall => ?_⟩
        · by_cases e : v = t / 2
          · subst e; rw [upd_same] at hv; cases hv
          · rw [upd_ne _ _ e, markAll_true] at hv
            rcases hv with hv | ⟨q, hq, hqv, hlv⟩
            · rcases h.sn v hv with h | ⟨x, hx, hxv⟩
              · exact Or.inl h
              · rcases List.mem_cons.1 hx with rfl | hx
                · exact absurd hxv.symm e
                · exact Or.inr ⟨x, hx, hxv⟩
            · subst hqv
              exact Or.inr ⟨neg q, hbelow q hq (fun e2 => e (by rw [e2])) hlv, neg_var q⟩
        · have hne : ∀ x ∈ ts, x / 2 ≠ t / 2 := by
            intro x hx e2
            have hxt : x = t := ht.same_var (hs.subset (List.mem_cons_of_mem _ (List.mem_append_left _ hx))) (hs.subset List.mem_cons_self) e2
            subst hxt
            exact ht.tdup x _ hs hl (List.mem_append_left _ hx)
          refine h.imp u hu fun x hx hsx => ?_
          rcases List.mem_cons.1 hx with rfl | hx
          · refine implied_lit (hls2 u hu) fun q hq hqt => ?_
            have hq := (List.mem_cons.1 hq).resolve_left hqt
            by_cases hlq : 0 < s.level (q / 2)
            · have hq' := hbelow q hq hqt hlq
              refine hall _ hq' ?_
              rw [upd_ne _ _ (hne _ hq'), markAll_true, neg_var]
              exact Or.inr ⟨q, hq, rfl, hlq⟩
            · refine hm.imp0 (neg q) (hs.subset (List.mem_cons_of_mem _ (hls1 q hq hqt))) ?_ u hu
              rw [neg_var]; omega
          · refine hall x hx ?_
            rw [upd_ne _ _ (hne x hx), markAll_true]
            exact Or.inl hsx
    · rw [if_neg hsn]
      refine finalLoop_spec hdb hm ha ht hb hup ts _ _ hsf' ⟨fun v hv => ?_, h.dec, h.hd, fun u hu hall => h.imp u hu fun x hx hsx => ?_⟩
      · rcases h.sn v hv with h | ⟨x, hx, hxv⟩
        · exact Or.inl h
        · rcases List.mem_cons.1 hx with rfl | hx
          · rw [hxv] at hsn; exact absurd hv hsn
          · exact Or.inr ⟨x, hx, hxv⟩
      · rcases List.mem_cons.1 hx with rfl | hx
        · exact absurd hsx hsn
        · exact hall x hx hsx

/-- the final conflict clause follows from the formula and consists of negated assumptions -/
theorem analyzeFinal_spec {Φ : (Nat → Bool) → Prop} {asm : List Nat} {s : S} {p : Nat} (h : PI Φ TT s (fun _ _ => False)) (hx : SX asm s) (hget : asm[s.dl]? = some p)
    (hv : s.value p = some false) :
    (∃ c, analyzeFinal s (neg p) = { s with conflict := c } ∧ c ≠ [] ∧ (∀ x ∈ c, neg x ∈ asm) ∧ ∀ u, Φ u → Sat u c) := by
  have hpt := (h.t.false_iff p).1 hv
  have hpm : p ∈ asm := List.mem_of_getElem? hget
  unfold analyzeFinal
  cases hl : s.trailLim.getLast? with
  | none =>
    refine ⟨[neg p], rfl, by simp, by simpa using hpm, fun u hu => ⟨neg p, by simp, h.m.imp0 _ hpt ?_ u hu⟩⟩
    have h1 := h.t.lev_le hpt
    have h2 : s.dl = 0 := by unfold S.dl; rw [List.getLast?_eq_none_iff.1 hl]; rfl
    omega
  | some lim0 =>
    dsimp only
    obtain ⟨base, hb1, hb2, hb3⟩ := h.t.upper hl
    have hfi := finalLoop_spec h.d h.m h.a h.t (p := neg p) hb2 hb3 (s.trail.take (s.trail.length - lim0)) (upd s.seen (neg p / 2) true) [neg p] (List.suffix_refl _) (by
      refine ⟨fun v hv => ?_, by simp, by simp, fun u hu hall => ⟨neg p, by simp, ?_⟩⟩
      · by_cases e : v = neg p / 2
        · exact Or.inl e
        · rw [upd_ne _ _ e, h.d.seen0] at hv; cases hv
      · have hpt' := hpt
        rw [hb1] at hpt'
        rcases List.mem_append.1 hpt' with h1 | h1
        · exact hall _ h1 (upd_same _ _ _)
        · exact h.m.imp0 _ hpt (hb2 _ h1) u hu)
    generalize finalLoop s (s.trail.take (s.trail.length - lim0)) (upd s.seen (neg p / 2) true) [neg p] = r at hfi
    have hseen : upd r.1 (neg p / 2) false = s.seen := by
      funext v
      rw [h.d.seen0 v]
      by_cases e : v = neg p / 2
      · rw [e, upd_same]
      · rw [upd_ne _ _ e]
        cases hs : r.1 v with
        | false => rfl
        | true =>
          rcases hfi.sn v hs with h | ⟨x, hx, _⟩
          · exact absurd h e
          · cases hx
    rw [hseen]
    refine ⟨r.2, rfl, fun e => ?_, fun x hx => ?_, fun u hu => hfi.imp u hu (by simp)⟩
    · have := hfi.hd; rw [e] at this; cases this
    · rcases hfi.dec x hx with rfl | ⟨h1, h2, h3⟩
      · rw [neg_neg]; exact hpm
      · refine SX.a1 ‹SX asm s› (neg x) h1 (by rw [neg_var]; exact h2) (by rw [neg_var]; exact h3) ?_
        have h4 := h.t.lev_le h1
        have h5 : s.dl < asm.length := (List.getElem?_eq_some_iff.1 hget).1
        omega

end Verif.Sat
