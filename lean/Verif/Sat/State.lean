import Verif.Sat.Solve
/-!
# Clauses and variables are added, states saved and loaded
-/
namespace Verif.Sat

theorem AmI.weaken {Φ Ψ : (Nat → Bool) → Prop} {J : Nat → Prop} {s : S} {ex : Nat → Nat → Prop} {exr : Nat → Prop} (h : AmI Φ J s ex exr) (hi : ∀ u, Ψ u → Φ u) : AmI Ψ J s ex exr :=
  ⟨h.idlt, h.new, h.nd, h.isam, h.att, h.bin, h.nodup, h.pos, h.range, h.two, h.wm, h.wa, fun c hc k hk u hu => h.sem c hc k hk u (hi u hu), h.jcl, h.w, h.full⟩

theorem PI.weaken {Φ Ψ : (Nat → Bool) → Prop} {J : Nat → Prop} {s : S} {ex : Nat → Nat → Prop} (h : PI Φ J s ex) (hi : ∀ u, Ψ u → Φ u) : PI Ψ J s ex :=
  ⟨h.d, h.t, ⟨fun c hc u hu => h.m.db c hc u (hi u hu), fun l hl h0 u hu => h.m.imp0 l hl h0 u (hi u hu), h.m.jcl, h.m.jtr⟩, h.q, h.w, h.a.weaken hi⟩

/-- the clause store grows -/
structure Ext (s s' : S) : Prop where
  nVars : s.nVars ≤ s'.nVars
  clauses : s.clauses <+: s'.clauses
  stateId : s'.stateId = s.stateId
  valid : s'.valid = s.valid
  old : ∀ c ∈ s.clauses, (s'.cls c).lits.Perm (s.cls c).lits
  lr : ∀ c ∈ s'.learnts, (c ∈ s.learnts ∧ (s'.cls c).lits.Perm (s.cls c).lits ∧ (s'.cls c).learntOn = (s.cls c).learntOn) ∨ (s'.cls c).learntOn = some s.stateId
  units : s.units <+: s'.units
  ams : s.ams <+: s'.ams
  am : ∀ c ∈ s.ams, AmSim (s.am c) (s'.am c)

theorem Evo.ext {s s' : S} (h : Evo s s') : Ext s s' :=
  ⟨by rw [h.nVars], by rw [h.clauses]; exact List.prefix_refl _, h.stateId, h.valid, h.old, h.lr, h.units, by rw [h.ams]; exact List.prefix_refl _, fun c _ => h.am c⟩

theorem Ext.refl (s : S) : Ext s s := (Evo.refl s).ext

theorem Ext.holds {s s' : S} (h : Ext s s') {u : Nat → Bool} (hu : s'.Holds u) : s.Holds u := by
  refine ⟨fun c hc => ?_, fun l hl => hu.2.1 l (h.units.subset hl), fun c hc k hk => ?_⟩
  · obtain ⟨l, hl, hv⟩ := hu.1 c (h.clauses.subset hc)
    exact ⟨l, (h.old c hc).mem_iff.1 hl, hv⟩
  · have h1 := (h.am c hc).symm
    rw [hk] at h1
    obtain ⟨k', e1, e2, e3⟩ := h1.is
    have := hu.2.2 c (h.ams.subset hc) k' e1
    rw [(e2.filter _).length_eq, e3]
    exact this

/-! ## new variables -/

theorem newVar_spec {Φ : (Nat → Bool) → Prop} {s : S} (h : RS Φ s) : RS Φ (newVar s) ∧ Ext s (newVar s) := by
  have hval : ∀ {J ex}, PI Φ J s ex → upd s.val s.nVars none = s.val := by
    intro J ex hp
    funext v
    by_cases hv : v = s.nVars
    · rw [hv, upd_same]
      cases hvv : s.val s.nVars with
      | none => rfl
      | some b =>
        exfalso
        have : ∃ l, l / 2 = s.nVars ∧ s.value l = some true := by
          cases b with
          | true => exact ⟨2 * s.nVars, by omega, by unfold S.value; rw [if_neg (by omega)]; rw [show 2 * s.nVars / 2 = s.nVars by omega]; exact hvv⟩
          | false => exact ⟨2 * s.nVars + 1, by omega, by unfold S.value; rw [if_pos (by omega)]; rw [show (2 * s.nVars + 1) / 2 = s.nVars by omega, hvv]; rfl⟩
        obtain ⟨l, h1, h2⟩ := this
        have := hp.t.trange l ((hp.t.tval l).1 h2)
        omega
    · exact upd_ne _ _ hv
  have hpi : ∀ {ex}, PI Φ TT s ex → PI Φ TT (newVar s) ex := by
    intro ex hp
    have hv := hval hp
    have hvalue : ∀ l, (newVar s).value l = s.value l := by
      intro l
      show (if l % 2 = 1 then ((upd s.val s.nVars none) (l / 2)).map not else (upd s.val s.nVars none) (l / 2)) = _
      rw [hv]; rfl
    have hno : ∀ l, (l = 2 * s.nVars ∨ l = 2 * s.nVars + 1) → s.watches l = [] ∧ s.watchesBin l = [] := by
      intro l hl
      have hl2 : (neg l) / 2 = s.nVars := by rw [neg_var]; omega
      constructor
      · rw [List.eq_nil_iff_forall_not_mem]
        rintro ⟨c, b⟩ hm
        cases hk : s.am c with
        | none =>
          obtain ⟨h1, _, h3, _⟩ := hp.d.wMem l c b hm hk
          have := hp.d.range c h1 (neg l) (by rcases h3 with h3 | h3 <;> rw [h3] <;> simp [Cls.lits])
          omega
        | some k =>
          obtain ⟨h1, h2⟩ := hp.a.wm l c b k hm hk
          have := hp.a.range c h1 k hk l (List.mem_append_left _ h2)
          omega
      · rw [List.eq_nil_iff_forall_not_mem]
        rintro ⟨c, b⟩ hm
        obtain ⟨h1, _, h3⟩ := hp.d.bMem l c b hm
        have := hp.d.range c h1 (neg l) (by rcases h3 with ⟨h3, _⟩ | ⟨h3, _⟩ <;> rw [h3] <;> simp [Cls.lits])
        omega
    have hw : (newVar s).watches = s.watches := by
      funext l
      show upd (upd s.watches (2 * s.nVars) []) (2 * s.nVars + 1) [] l = _
      by_cases h1 : l = 2 * s.nVars + 1
      · rw [h1, upd_same, (hno _ (Or.inr rfl)).1]
      · rw [upd_ne _ _ h1]
        by_cases h2 : l = 2 * s.nVars
        · rw [h2, upd_same, (hno _ (Or.inl rfl)).1]
        · rw [upd_ne _ _ h2]
    have hb : (newVar s).watchesBin = s.watchesBin := by
      funext l
      show upd (upd s.watchesBin (2 * s.nVars) []) (2 * s.nVars + 1) [] l = _
      by_cases h1 : l = 2 * s.nVars + 1
      · rw [h1, upd_same, (hno _ (Or.inr rfl)).2]
      · rw [upd_ne _ _ h1]
        by_cases h2 : l = 2 * s.nVars
        · rw [h2, upd_same, (hno _ (Or.inl rfl)).2]
        · rw [upd_ne _ _ h2]
    have hlt : ∀ {x : Nat}, x < s.nVars → x < (newVar s).nVars := fun h => Nat.lt_succ_of_lt h
    have hlv : ∀ {l : Nat}, l / 2 < s.nVars → (newVar s).level (l / 2) = s.level (l / 2) := fun h => upd_ne _ _ (Nat.ne_of_lt h)
    have hlt' : ∀ {l : Nat}, l ∈ s.trail → (newVar s).level (l / 2) = s.level (l / 2) := fun h => hlv (hp.t.trange _ h)
    refine ⟨⟨hp.d.idlt, hp.d.nodupAtt, hp.d.clNodup, fun c hc l hl => hlt (hp.d.range c hc l hl), ?_, ?_, ?_, ?_, ?_, hp.d.seen0, ?_⟩,
      ⟨?_, fun l hl => hlt (hp.t.trange l hl), fun l rest hsf => by rw [hlt' (hsf.subset List.mem_cons_self)]; exact hp.t.tlev l rest hsf,
        fun l rest hsf hpos => hp.t.tdup l rest hsf (by rwa [hlt' (hsf.subset List.mem_cons_self)] at hpos), ?_, hp.t.tlimS, hp.t.tlimLe, ?_, hp.t.qle⟩,
      ⟨hp.m.db, fun l hl h0 => hp.m.imp0 l hl (by rwa [hlt' hl] at h0), hp.m.jcl, hp.m.jtr⟩,
      fun l rest hsf hq => by rw [hlt' (hsf.subset List.mem_cons_self)]; exact hp.q l rest hsf hq, ?_, ?_⟩
    · rw [hw]; exact hp.d.wNodup
    · rw [hw]; exact hp.d.wMem
    · rw [hw]; exact hp.d.wAll
    · rw [hb]; exact hp.d.bMem
    · rw [hb]; exact hp.d.bAll
    · rw [hw]; exact hp.d.wOne
    · intro l; rw [hvalue]; exact hp.t.tval l
    · intro l rest hsf hpos
      have : (newVar s).reason (l / 2) = s.reason (l / 2) := upd_ne _ _ (by have := hp.t.trange l (hsf.subset List.mem_cons_self); omega)
      rw [this]
      rw [hlt' (hsf.subset List.mem_cons_self)] at hpos
      exact hp.t.treason l rest hsf hpos
    · intro v hv h0
      show v ∈ insHeap s.heap s.nVars
      rw [mem_insHeap]
      by_cases hvn : v = s.nVars
      · exact Or.inr hvn
      · refine Or.inl (hp.t.heapAll v ?_ ?_)
        · have : v < s.nVars + 1 := hv
          omega
        · have h0 : upd s.val s.nVars none v = none := h0
          rwa [hval hp] at h0
    · intro c hcm w hwc hpr hex
      have hwc : w = (s.cls c).a ∨ w = (s.cls c).b := hwc
      obtain ⟨y, e1, e2, e3, e4⟩ := hp.w c hcm w hwc hpr hex
      refine ⟨y, e1, e2, ?_, by rw [hw]; exact e4⟩
      rw [hlt' e2, hlv (hp.d.range c hcm w (by rcases hwc with h | h <;> rw [h] <;> simp [Cls.lits]))]
      exact e3
    · refine ⟨hp.a.idlt, hp.a.new, hp.a.nd, hp.a.isam, hp.a.att, by rw [hb]; exact hp.a.bin, hp.a.nodup, hp.a.pos, fun c hc k hk x hx => hlt (hp.a.range c hc k hk x hx), hp.a.two,
        by rw [hw]; exact hp.a.wm, by rw [hw]; exact hp.a.wa, hp.a.sem, hp.a.jcl, ?_, ?_⟩
      · intro c hcm k hk x hx hpr hex y hy hne
        obtain ⟨e1, e2⟩ := hp.a.w c hcm k hk x hx hpr hex y hy hne
        refine ⟨e1, ?_⟩
        rw [hlv (hp.a.range c hcm k hk y (List.mem_append_left _ hy)), hlv (hp.a.range c hcm k hk x (List.mem_append_left _ hx))]
        exact e2
      intro x hx hl c hr
      have : (newVar s).reason (x / 2) = s.reason (x / 2) := upd_ne _ _ (by have := hp.t.trange x hx; omega)
      rw [this] at hr
      rw [hlt' hx] at hl
      intro k hk hex q hq
      obtain ⟨e1, e2⟩ := hp.a.full x hx hl c hr k hk hex q hq
      refine ⟨e1, ?_⟩
      have hqn : q / 2 < s.nVars := by
        rcases e1 with e1 | e1
        · exact hp.t.trange q e1
        · have := hp.t.trange _ e1; rwa [neg_var] at this
      rw [hlt' hx, hlv hqn]
      exact e2
  refine ⟨⟨h.dl0, ?_, ?_, ?_, h.dead⟩, ⟨Nat.le_succ _, List.prefix_refl _, rfl, rfl, fun _ _ => .refl _, fun _ hc => Or.inl ⟨hc, .refl _, rfl⟩, List.prefix_refl _, List.prefix_refl _, fun _ _ => .refl _⟩⟩
  · obtain ⟨ex, hp⟩ := h.pi
    exact ⟨ex, hpi hp⟩
  · intro v hv
    have hv : v ∈ insHeap s.heap s.nVars := hv
    rw [mem_insHeap] at hv
    show v < s.nVars + 1
    rcases hv with hv | hv
    · have := h.hr v hv; omega
    · omega
  · intro hok
    obtain ⟨r1, r2, r3, r4⟩ := h.run hok
    exact ⟨hpi r1, r2, r3, r4⟩

/-! ## new clauses -/

theorem addLoop_spec {s : S} {ps : List Nat} : ∀ (qs : List Nat) (p : Option Nat) (acc : List Nat), (∀ q ∈ qs, q ∈ ps) → (∀ q ∈ acc, q ∈ ps) → qs.Pairwise (· ≤ ·) →
    (∀ x ∈ acc, s.value x = none) → acc.Nodup → (∀ x ∈ acc, ∀ q ∈ qs, x ≤ q) → ((p = none ∧ acc = []) ∨ ∃ a, p = some a ∧ a ∈ acc ∧ ∀ x ∈ acc, x ≤ a) →
    match addLoop s qs p acc with
    | none => (∃ q ∈ ps, s.value q = some true) ∨ ∃ q ∈ ps, neg q ∈ ps
    | some out => out.Nodup ∧ (∀ x ∈ out, x ∈ ps ∧ s.value x = none) ∧ (∀ x ∈ acc, x ∈ out) ∧ ∀ q ∈ qs, q ∈ out ∨ s.value q = some false
  | [], p, acc, _, h2, _, h4, h5, _, _ => by
    refine ⟨h5, fun x hx => ⟨h2 x hx, h4 x hx⟩, fun x hx => hx, by simp⟩
  | q :: qs, p, acc, h1, h2, h3, h4, h5, h6, h7 => by
    have hq := h1 q List.mem_cons_self
    unfold addLoop
    by_cases hc : s.value q = some true ∨ p = some (neg q)
    · rw [if_pos hc]
      rcases hc with hc | hc
      · exact Or.inl ⟨q, hq, hc⟩
      · refine Or.inr ⟨q, hq, ?_⟩
        rcases h7 with ⟨h, _⟩ | ⟨a, ha, hm, _⟩
        · rw [h] at hc; cases hc
        · rw [ha] at hc
          injection hc with hc
          rw [← hc]; exact h2 a hm
    · rw [if_neg hc]
      have hs := List.pairwise_cons.1 h3
      by_cases hd : s.value q ≠ some false ∧ p ≠ some q
      · rw [if_pos hd]
        have hvq : s.value q = none := by
          cases hv : s.value q with
          | none => rfl
          | some b => cases b with
            | true => exact absurd (Or.inl hv) hc
            | false => exact absurd hv hd.1
        have hnq : q ∉ acc := by
          intro hm
          rcases h7 with ⟨_, h⟩ | ⟨a, ha, ham, hmax⟩
          · rw [h] at hm; cases hm
          · have := hmax q hm
            have := h6 a ham q List.mem_cons_self
            exact hd.2 (by rw [ha]; congr 1; omega)
        have ih := addLoop_spec (s := s) (ps := ps) qs (some q) (acc ++ [q]) (fun x hx => h1 x (List.mem_cons_of_mem _ hx)) ?_ hs.2 ?_ ?_ ?_ ?_
        · cases hal : addLoop s qs (some q) (acc ++ [q]) with
          | none => rw [hal] at ih; exact ih
          | some out =>
            rw [hal] at ih
            obtain ⟨i1, i2, i3, i4⟩ := ih
            refine ⟨i1, i2, fun x hx => i3 x (List.mem_append_left _ hx), fun x hx => ?_⟩
            rcases List.mem_cons.1 hx with rfl | hx
            · exact Or.inl (i3 _ (by simp))
            · exact i4 x hx
        · intro x hx
          rcases List.mem_append.1 hx with hx | hx
          · exact h2 x hx
          · rw [List.mem_singleton.1 hx]; exact hq
        · intro x hx
          rcases List.mem_append.1 hx with hx | hx
          · exact h4 x hx
          · rw [List.mem_singleton.1 hx]; exact hvq
        · rw [List.nodup_append]
          exact ⟨h5, by simp, fun a ha b hb e => hnq (by rw [← List.mem_singleton.1 hb, ← e]; exact ha)⟩
        · intro x hx y hy
          rcases List.mem_append.1 hx with hx | hx
          · exact h6 x hx y (List.mem_cons_of_mem _ hy)
          · rw [List.mem_singleton.1 hx]; exact hs.1 y hy
        · refine Or.inr ⟨q, rfl, by simp, fun x hx => ?_⟩
          rcases List.mem_append.1 hx with hx | hx
          · exact h6 x hx q List.mem_cons_self
          · rw [List.mem_singleton.1 hx]
      · rw [if_neg hd]
        have ih := addLoop_spec (s := s) (ps := ps) qs p acc (fun x hx => h1 x (List.mem_cons_of_mem _ hx)) h2 hs.2 h4 h5 (fun x hx y hy => h6 x hx y (List.mem_cons_of_mem _ hy)) h7
        cases hal : addLoop s qs p acc with
        | none => rw [hal] at ih; exact ih
        | some out =>
          rw [hal] at ih
          obtain ⟨i1, i2, i3, i4⟩ := ih
          refine ⟨i1, i2, i3, fun x hx => ?_⟩
          rcases List.mem_cons.1 hx with rfl | hx
          · by_cases hf : s.value x = some false
            · exact Or.inr hf
            · left
              have hpx : p = some x := by
                apply Classical.byContradiction
                intro hne
                exact hd ⟨hf, hne⟩
              rcases h7 with ⟨h, _⟩ | ⟨a, ha, ham, _⟩
              · rw [h] at hpx; cases hpx
              · rw [ha] at hpx
                injection hpx with hpx
                rw [← hpx]; exact i3 a ham
          · exact i4 x hx

theorem addClause_spec {Φ : (Nat → Bool) → Prop} {s s' : S} {fuel : Nat} {ps : List Nat} {b : Bool} (h : RS Φ s) (hr : ∀ l ∈ ps, l / 2 < s.nVars)
    (he : addClause fuel s ps = some (s', b)) : RS (fun u => Φ u ∧ Sat u ps) s' ∧ Ext s s' ∧ s'.ok = b := by
  unfold addClause at he
  by_cases hok : s.ok = false
  · rw [if_pos hok] at he
    cases he
    refine ⟨⟨h.dl0, ?_, h.hr, fun e => ?_, fun _ u hu => h.dead hok u hu.1⟩, Ext.refl _, hok⟩
    · obtain ⟨ex, hp⟩ := h.pi
      exact ⟨ex, hp.weaken fun u hu => hu.1⟩
    · rw [hok] at e; cases e
  rw [if_neg hok] at he
  have hok : s.ok = true := by simpa using hok
  obtain ⟨r1, r2, r3, r4⟩ := h.run hok
  have hperm : (ps.insertionSort (· ≤ ·)).Perm ps := List.perm_insertionSort _ _
  have hal := addLoop_spec (s := s) (ps := ps) (ps.insertionSort (· ≤ ·)) none [] (fun q hq => hperm.mem_iff.1 hq) (by simp) (List.pairwise_insertionSort _ _)
    (by simp) (by simp) (by simp) (Or.inl ⟨rfl, rfl⟩)
  have hfl : ∀ q, s.value q = some false → ∀ u, Φ u → lv u q = false := by
    intro q hq u hu
    have hm := (r1.t.false_iff q).1 hq
    have := r1.m.imp0 _ hm (h.lev hm) u hu
    rw [lv_neg] at this
    simpa using this
  cases hl : addLoop s (ps.insertionSort (· ≤ ·)) none [] with
  | none =>
    rw [hl] at he hal
    cases he
    have himp : ∀ u, Φ u → Sat u ps := by
      intro u hu
      rcases hal with ⟨q, hq, hv⟩ | ⟨q, hq, hnq⟩
      · have hm := (r1.t.tval q).1 hv
        exact ⟨q, hq, r1.m.imp0 _ hm (h.lev hm) u hu⟩
      · cases hv : lv u q with
        | true => exact ⟨q, hq, hv⟩
        | false => exact ⟨neg q, hnq, by rw [lv_neg, hv]; rfl⟩
    refine ⟨⟨h.dl0, ⟨_, r1.weaken fun u hu => hu.1⟩, h.hr, fun _ => ⟨r1.weaken fun u hu => hu.1, r2, r3, fun u hu => ⟨r4 u hu, himp u (r4 u hu)⟩⟩, fun e => ?_⟩, Ext.refl _, hok⟩
    rw [hok] at e; cases e
  | some out =>
    rw [hl] at he hal
    obtain ⟨hnd, hout, _, hcov⟩ := hal
    have hcov : ∀ q ∈ ps, q ∈ out ∨ s.value q = some false := fun q hq => hcov q (hperm.mem_iff.2 hq)
    have hsat : ∀ u, Φ u → Sat u ps → Sat u out := by
      rintro u hu ⟨q, hq, hv⟩
      rcases hcov q hq with ho | hf
      · exact ⟨q, ho, hv⟩
      · rw [hfl q hf u hu] at hv; cases hv
    have hback : ∀ u, Sat u out → Sat u ps := fun u ⟨q, hq, hv⟩ => ⟨q, (hout q hq).1, hv⟩
    match out, he with
    | [], he =>
      cases he
      have hun : ∀ u, ¬ (Φ u ∧ Sat u ps) := by
        rintro u ⟨hu, hs⟩
        obtain ⟨q, hq, _⟩ := hsat u hu hs
        cases hq
      exact ⟨⟨h.dl0, ⟨_, (r1.weaken fun u hu => hu.1).irrel rfl⟩, h.hr, fun e => (by cases e), fun _ => hun⟩,
        ⟨Nat.le_refl _, List.prefix_refl _, rfl, rfl, fun _ _ => .refl _, fun _ hc => Or.inl ⟨hc, .refl _, rfl⟩, List.prefix_refl _, List.prefix_refl _, fun _ _ => .refl _⟩, rfl⟩
    | [l], he =>
      dsimp only at he
      obtain ⟨hlp, hlv⟩ := hout l (by simp)
      have hpe : PI (fun u => Φ u ∧ Sat u ps) TT (enqueue s l none) (fun _ _ => False) := by
        refine (r1.weaken fun u hu => hu.1).enqueue (Or.inl hlv) (hr l hlp) (fun e => ?_) (fun _ u hu => ?_) trivial (fun _ e => by cases e)
        · rw [h.dl0] at e; omega
        · obtain ⟨q, hq, hv⟩ := hsat u hu.1 hu.2
          rw [List.mem_singleton.1 hq] at hv; exact hv
      cases hp : propagate fuel (enqueue s l none) with
      | none => rw [hp] at he; cases he
      | some x =>
        obtain ⟨s1, r⟩ := x
        rw [hp] at he
        cases he
        obtain ⟨f, hp1⟩ := propagate_spec fuel _ s1 r hpe hp
        have hsub : ∀ x ∈ s1.units ++ [l], x ∈ s1.trail := by
          intro x hx
          apply f.trail.subset
          rcases List.mem_append.1 hx with hx | hx
          · rw [f.units] at hx
            exact List.mem_cons_of_mem _ (r3 x hx)
          · rw [List.mem_singleton.1 hx]; exact List.mem_cons_self
        have hdl : s1.dl = 0 := by
          have : s1.trailLim = s.trailLim := f.trailLim
          unfold S.dl; rw [this]; exact h.dl0
        have hext : Ext s { s1 with ok := r.isNone, units := s1.units ++ [l] } := by
          have hev := f.evo
          have h0 : Evo s (enqueue s l none) := ⟨rfl, rfl, rfl, rfl, fun _ _ => .refl _, fun _ hc => Or.inl ⟨hc, .refl _, rfl⟩, List.prefix_refl _, rfl, fun _ => .refl _⟩
          have hev := (h0.trans hev).ext
          exact ⟨hev.nVars, hev.clauses, hev.stateId, hev.valid, hev.old, hev.lr, hev.units.trans (List.prefix_append _ _), hev.ams, hev.am⟩
        have hheap : ∀ v ∈ s1.heap, v < s1.nVars := by
          rw [f.heap, f.nVars]; exact h.hr
        cases r with
        | none =>
          refine ⟨⟨hdl, ⟨_, hp1.1.irrel rfl⟩, hheap, fun _ => ⟨hp1.1.irrel rfl, hp1.2, hsub, fun u hu => ⟨r4 u (hext.holds hu), l, hlp, hu.2.1 l (by simp)⟩⟩, fun e => (by cases e)⟩, hext, rfl⟩
        | some c =>
          exact ⟨⟨hdl, ⟨_, hp1.pi.irrel rfl⟩, hheap, fun e => (by cases e), fun _ => hp1.unsat hdl⟩, hext, rfl⟩
    | a :: b' :: rest, he =>
      dsimp only at he
      injection he with he
      injection he with e1 e2
      subst e1
      have hpa := attach_spec (k := ⟨a, b', rest, none⟩) (s0 := { s with clauses := s.clauses ++ [s.nextId] }) (r1.weaken (Ψ := fun u => Φ u ∧ Sat u ps) fun u hu => hu.1) hnd
        (fun l hl => hr l (hout l hl).1) (fun u hu => hsat u hu.1 hu.2) (fun _ _ _ => trivial) (Or.inr ⟨_, rfl, rfl⟩)
      obtain ⟨q1, q2, q3, q4, q5, q6, q7, q8, q9, q10, q11, q12, q13, q14, q15, q16, q17, q18, q19, q20, q21⟩ := attach_cls { s with clauses := s.clauses ++ [s.nextId] } ⟨a, b', rest, none⟩
      generalize attach { s with clauses := s.clauses ++ [s.nextId] } ⟨a, b', rest, none⟩ = s2 at *
      dsimp only at q1 q2 q3 q4 q5 q6 q7 q8 q9 q10 q11 q12 q13 q14 q15 q16 q17 q18 q19 q20 q21
      have hp2 : PI (fun u => Φ u ∧ Sat u ps) TT s2 (fun _ _ => False) := by
        refine ⟨hpa.d, hpa.t, hpa.m, hpa.q, fun c hc w hw hpr _ => ?_, hpa.a.mono fun c hc _ _ _ _ _ e _ => ?_⟩
        rotate_left
        · exfalso
          have hc : c ∈ s2.ams := hc
          have e : c = s.nextId := e
          rw [q20] at hc
          have := r1.a.idlt c hc
          omega
        by_cases hcn : c = s.nextId
        · exfalso
          subst hcn
          rw [q1, upd_same] at hw
          have hwo : w ∈ a :: b' :: rest := by
            rcases hw with hw | hw <;> rw [hw] <;> simp
          have hv := (hout w hwo).2
          have hm : neg w ∈ s.trail := by
            have : neg w ∈ s2.trail := List.mem_of_mem_drop hpr
            rwa [q8] at this
          rw [(r1.t.false_iff w).2 hm] at hv; cases hv
        · exact hpa.w c hc w hw hpr hcn
      have hcls : ∀ c, c ∈ s.att → s2.cls c = s.cls c := by
        intro c hc
        rw [q1]
        exact upd_ne _ _ (by have := r1.d.idlt c hc; omega)
      have hext : Ext s s2 := by
        refine ⟨by rw [q13], by rw [q2]; exact List.prefix_append _ _, q18, q19, fun c hc => ?_, fun c hc => ?_, by rw [q15]; exact List.prefix_refl _, by rw [q20]; exact List.prefix_refl _, fun c _ => by rw [q21]; exact .refl _⟩
        · rw [hcls c (List.mem_append_left _ hc)]
        · rw [q3] at hc
          rw [hcls c (List.mem_append_right _ hc)]
          exact Or.inl ⟨hc, .refl _, rfl⟩
      refine ⟨⟨?_, ⟨_, hp2⟩, by rw [q10, q13]; exact h.hr, fun _ => ⟨hp2, by rw [q12, q8]; exact r2, by rw [q15, q8]; exact r3, fun u hu => ⟨r4 u (hext.holds hu), hback u ?_⟩⟩, fun e => ?_⟩, hext, ?_⟩
      · unfold S.dl; rw [q9]; exact h.dl0
      · have := hu.1 s.nextId (by rw [q2]; simp)
        rw [q1, upd_same] at this
        exact this
      · rw [q14, hok] at e; cases e
      · rw [q14, hok, e2]

/-! ## saved states -/

/-- the clauses that are kept when the state is loaded -/
def S.keeps (s : S) (st : Saved) (c : Nat) : Prop := c ∈ s.clauses.take st.nClauses ∨ (c ∈ s.learnts ∧ ∀ k, (s.cls c).learntOn = some k → k ≤ st.id)

/-- the set of literals is closed under propagation of the at-most clause, and does not contradict it -/
def AmClosed (T : Nat → Prop) (k : Am) : Prop :=
  ∀ L : List Nat, L.Nodup → (∀ y ∈ L, y ∈ k.lits ∧ T y) → L.length ≤ k.card ∧ (k.card ≤ L.length → ∀ x ∈ k.lits, x ∉ L → T (neg x))

theorem AmClosed.perm {T : Nat → Prop} {k k' : Am} (h : AmClosed T k) (hp : k'.lits.Perm k.lits) (hc : k'.card = k.card) : AmClosed T k' := by
  intro L hn hL
  obtain ⟨h1, h2⟩ := h L hn fun y hy => ⟨hp.mem_iff.1 (hL y hy).1, (hL y hy).2⟩
  rw [hc]
  exact ⟨h1, fun hl x hx => h2 hl x (hp.mem_iff.1 hx)⟩

/-- what is known about a saved state whose clauses had the conjunction `Φ` -/
structure Kept (s : S) (st : Saved) (Φ : (Nat → Bool) → Prop) : Prop where
  idlt : st.id < s.stateId
  nv : st.nVars ≤ s.nVars
  nc : st.nClauses ≤ s.clauses.length
  nu : st.nUnits ≤ s.units.length
  na : st.nAms ≤ s.ams.length
  arng : ∀ c ∈ s.ams.take st.nAms, ∀ k, s.am c = some k → ∀ x ∈ k.lits, x / 2 < st.nVars
  aimp : ∀ c ∈ s.ams.take st.nAms, ∀ k, s.am c = some k → ∀ u, Φ u → (k.lits.filter (lv u)).length ≤ k.card
  rng : ∀ c, s.keeps st c → ∀ l ∈ (s.cls c).lits, l / 2 < st.nVars
  imp : ∀ c, s.keeps st c → ∀ u, Φ u → Sat u (s.cls c).lits
  dead : st.ok = false → ∀ u, ¬ Φ u
  live : st.ok = true → (∀ u, (∀ c ∈ s.clauses.take st.nClauses, Sat u (s.cls c).lits) → (∀ l ∈ s.units.take st.nUnits, lv u l = true) →
      (∀ c ∈ s.ams.take st.nAms, ∀ k, s.am c = some k → (k.lits.filter (lv u)).length ≤ k.card) → Φ u) ∧
    ∃ T : Nat → Prop, (∀ l, T l → ¬ T (neg l)) ∧ (∀ l ∈ s.units.take st.nUnits, T l ∧ l / 2 < st.nVars ∧ ∀ u, Φ u → lv u l = true) ∧
      (∀ c, s.keeps st c → (∀ l ∈ (s.cls c).lits, (∀ q ∈ (s.cls c).lits, q ≠ l → T (neg q)) → T l) ∧ ¬ ∀ q ∈ (s.cls c).lits, T (neg q)) ∧
      ∀ c ∈ s.ams.take st.nAms, ∀ k, s.am c = some k → AmClosed T k

theorem Tr.consistent {s : S} (h : Tr s) {l : Nat} (h1 : l ∈ s.trail) (h2 : neg l ∈ s.trail) : False := by
  have a := (h.tval l).2 h1
  have b := (h.false_iff l).2 h2
  rw [a] at b; cases b

/-- an attached clause of a propagated state has a true literal if a watched literal is false -/
theorem PI.true_of_false {Φ : (Nat → Bool) → Prop} {J : Nat → Prop} {s : S} (h : PI Φ J s (fun _ _ => False)) (hq : s.qhead = s.trail.length) {c w : Nat} (hc : c ∈ s.att)
    (hw : w = (s.cls c).a ∨ w = (s.cls c).b) (hn : neg w ∈ s.trail) : ∃ y ∈ (s.cls c).lits, y ∈ s.trail := by
  obtain ⟨y, h1, h2, _⟩ := h.w c hc w hw (by unfold S.proc; rw [hq, Nat.sub_self, List.drop_zero]; exact hn) not_false
  exact ⟨y, h1, h2⟩

/-- in a propagated state the true literals of the at-most clauses are closed under propagation -/
theorem PI.amClosed {Φ : (Nat → Bool) → Prop} {J : Nat → Prop} {s : S} (h : PI Φ J s (fun _ _ => False)) (hq : s.qhead = s.trail.length) {c : Nat} (hc : c ∈ s.ams) {k : Am}
    (hk : s.am c = some k) : AmClosed (· ∈ s.trail) k := by
  intro L hn hL
  have hnd := h.a.nodup c hc k hk
  unfold Am.lits at hnd
  rw [List.nodup_append] at hnd
  by_cases hw : ∃ y ∈ k.w, y ∈ s.trail
  · obtain ⟨y, hy, hyt⟩ := hw
    have hf : ∀ z ∈ k.w, z ≠ y → neg z ∈ s.trail := fun z hz hne =>
      (h.a.w c hc k hk y hy (by unfold S.proc; rw [hq, Nat.sub_self, List.drop_zero]; exact hyt) not_false z hz hne).1
    have hsub : L ⊆ y :: k.u := by
      intro z hz
      obtain ⟨z1, z2⟩ := hL z hz
      rcases List.mem_append.1 z1 with z1 | z1
      · by_cases e : z = y
        · rw [e]; exact List.mem_cons_self
        · exact (h.t.consistent z2 (hf z z1 e)).elim
      · exact List.mem_cons_of_mem _ z1
    have hsp := List.subperm_of_subset hn hsub
    refine ⟨hsp.length_le, fun hl x hx hxL => ?_⟩
    have hp := hsp.perm_of_length_le (by unfold Am.card at hl; simpa using hl)
    rcases List.mem_append.1 hx with hx | hx
    · exact hf x hx fun e => hxL (hp.mem_iff.2 (by rw [e]; exact List.mem_cons_self))
    · exact absurd (hp.mem_iff.2 (List.mem_cons_of_mem _ hx)) hxL
  · have hsub : L ⊆ k.u := by
      intro z hz
      obtain ⟨z1, z2⟩ := hL z hz
      rcases List.mem_append.1 z1 with z1 | z1
      · exact absurd ⟨z, z1, z2⟩ hw
      · exact z1
    have := (List.subperm_of_subset hn hsub).length_le
    unfold Am.card
    exact ⟨by omega, fun _ => by omega⟩

theorem save_spec {Φ : (Nat → Bool) → Prop} {s : S} (h : RS Φ s) : RS Φ (saveState s).1 ∧ Kept (saveState s).1 (saveState s).2 Φ := by
  have hRS : RS Φ (saveState s).1 := by
    refine ⟨h.dl0, ?_, h.hr, fun hok => ?_, h.dead⟩
    · obtain ⟨ex, hp⟩ := h.pi
      exact ⟨ex, hp.irrel rfl⟩
    · obtain ⟨r1, r2, r3, r4⟩ := h.run hok
      exact ⟨r1.irrel rfl, r2, r3, r4⟩
  refine ⟨hRS, ?_⟩
  obtain ⟨ex, hp⟩ := h.pi
  have hk : ∀ c, (saveState s).1.keeps (saveState s).2 c → c ∈ s.att := by
    rintro c (hc | ⟨hc, _⟩)
    · exact List.mem_append_left _ (List.mem_of_mem_take hc)
    · exact List.mem_append_right _ hc
  refine ⟨Nat.lt_succ_self _, Nat.le_refl _, Nat.le_refl _, Nat.le_refl _, Nat.le_refl _, fun c hc => hp.a.range c (List.mem_of_mem_take hc), fun c hc => hp.a.sem c (List.mem_of_mem_take hc), fun c hc => hp.d.range c (hk c hc), fun c hc => hp.m.db c (hk c hc), h.dead, fun hok => ?_⟩
  obtain ⟨r1, r2, r3, r4⟩ := h.run hok
  refine ⟨fun u h1 h2 h3 => r4 u ⟨fun c hc => h1 c ?_, fun l hl => h2 l ?_, fun c hc => h3 c ?_⟩, (· ∈ s.trail), fun l h1 h2 => r1.t.consistent h1 h2, fun l hl => ?_,
    fun c hc => ⟨fun l hl hq => ?_, fun hq => ?_⟩, fun c hc k hk => r1.amClosed r2 (List.mem_of_mem_take hc) hk⟩
  · show c ∈ s.clauses.take s.clauses.length
    rw [List.take_length]; exact hc
  · show l ∈ s.units.take s.units.length
    rw [List.take_length]; exact hl
  · show c ∈ s.ams.take s.ams.length
    rw [List.take_length]; exact hc
  · have hm := r3 l (List.mem_of_mem_take hl)
    exact ⟨hm, r1.t.trange l hm, r1.m.imp0 l hm (h.lev hm)⟩
  · have hc := hk c hc
    have hab : (s.cls c).a ≠ (s.cls c).b := by
      have := r1.d.clNodup c hc
      simp [Cls.lits] at this
      exact this.1.1
    obtain ⟨w, hw, hwl⟩ : ∃ w, (w = (s.cls c).a ∨ w = (s.cls c).b) ∧ w ≠ l := by
      by_cases hal : (s.cls c).a = l
      · exact ⟨_, Or.inr rfl, fun e => hab (hal.trans e.symm)⟩
      · exact ⟨_, Or.inl rfl, hal⟩
    have hwm : w ∈ (s.cls c).lits := by rcases hw with hw | hw <;> rw [hw] <;> simp [Cls.lits]
    obtain ⟨y, hy, hyt⟩ := r1.true_of_false r2 hc hw (hq w hwm hwl)
    by_cases hyl : y = l
    · rw [← hyl]; exact hyt
    · exact (r1.t.consistent hyt (hq y hy hyl)).elim
  · have hc := hk c hc
    obtain ⟨y, hy, hyt⟩ := r1.true_of_false r2 hc (Or.inl rfl) (hq _ (show (s.cls c).a ∈ (s.cls c).lits by simp [Cls.lits]))
    exact r1.t.consistent hyt (hq y hy)

/-- the saved state is not touched when clauses stay at their places -/
theorem Kept.move {s s' : S} {st : Saved} {Φ : (Nat → Bool) → Prop} (h : Kept s st Φ) (hid : st.id < s'.stateId) (hnv : st.nVars ≤ s'.nVars)
    (hcl : s'.clauses.take st.nClauses = s.clauses.take st.nClauses) (hnc : st.nClauses ≤ s'.clauses.length)
    (hun : s'.units.take st.nUnits = s.units.take st.nUnits) (hnu : st.nUnits ≤ s'.units.length)
    (ham : s'.ams.take st.nAms = s.ams.take st.nAms) (hna : st.nAms ≤ s'.ams.length) (hmm : ∀ c ∈ s.ams.take st.nAms, AmSim (s.am c) (s'.am c))
    (hk : ∀ c, s'.keeps st c → s.keeps st c ∧ (s'.cls c).lits.Perm (s.cls c).lits) : Kept s' st Φ := by
  have hA : ∀ c ∈ s'.ams.take st.nAms, ∀ k', s'.am c = some k' → ∃ k, c ∈ s.ams.take st.nAms ∧ s.am c = some k ∧ k'.lits.Perm k.lits ∧ k'.card = k.card := by
    intro c hc k' hk'
    rw [ham] at hc
    have h1 := hmm c hc
    rw [hk'] at h1
    obtain ⟨k, e1, e2, e3⟩ := h1.is
    exact ⟨k, hc, e1, e2, e3⟩
  have hm : ∀ c, s'.keeps st c → ∀ l, l ∈ (s'.cls c).lits ↔ l ∈ (s.cls c).lits := fun c hc l => (hk c hc).2.mem_iff
  have hS : ∀ c, s'.keeps st c → ∀ u, Sat u (s'.cls c).lits ↔ Sat u (s.cls c).lits := by
    intro c hc u
    constructor
    · rintro ⟨l, hl, hv⟩; exact ⟨l, (hm c hc l).1 hl, hv⟩
    · rintro ⟨l, hl, hv⟩; exact ⟨l, (hm c hc l).2 hl, hv⟩
  refine ⟨hid, hnv, hnc, hnu, hna, fun c hc k' hk' x hx => (by
      obtain ⟨k, e0, e1, e2, e3⟩ := hA c hc k' hk'
      exact h.arng c e0 k e1 x (e2.mem_iff.1 hx)), fun c hc k' hk' u hu => (by
      obtain ⟨k, e0, e1, e2, e3⟩ := hA c hc k' hk'
      rw [(e2.filter _).length_eq, e3]
      exact h.aimp c e0 k e1 u hu), fun c hc l hl => h.rng c (hk c hc).1 l ((hm c hc l).1 hl), fun c hc u hu => (hS c hc u).2 (h.imp c (hk c hc).1 u hu), h.dead, fun hok => ?_⟩
  obtain ⟨l1, T, l2, l3, l4, l5⟩ := h.live hok
  refine ⟨fun u h1 h2 h3 => l1 u (fun c hc => ?_) (by rw [← hun]; exact h2) (fun c hc k hk => ?_), T, l2, by rw [hun]; exact l3, fun c hc => ?_, fun c hc k' hk' => ?_⟩
  · have hc' : c ∈ s'.clauses.take st.nClauses := by rw [hcl]; exact hc
    exact (hS c (Or.inl hc') u).1 (h1 c hc')
  · have h4 := (hmm c hc).symm
    rw [hk] at h4
    obtain ⟨k', e1, e2, e3⟩ := h4.is
    rw [(e2.filter _).length_eq, e3]
    exact h3 c (by rw [ham]; exact hc) k' e1
  · obtain ⟨j1, j2⟩ := l4 c (hk c hc).1
    exact ⟨fun l hl hq => j1 l ((hm c hc l).1 hl) fun q hq' hne => hq q ((hm c hc q).2 hq') hne, fun hq => j2 fun q hq' => hq q ((hm c hc q).2 hq')⟩
  · obtain ⟨k, e0, e1, e2, e3⟩ := hA c hc k' hk'
    exact (l5 c e0 k e1).perm e2 e3

theorem Kept.ext {s s' : S} {st : Saved} {Φ : (Nat → Bool) → Prop} (h : Kept s st Φ) (he : Ext s s') : Kept s' st Φ := by
  have hcl : s'.clauses.take st.nClauses = s.clauses.take st.nClauses := by
    obtain ⟨t, ht⟩ := he.clauses
    rw [← ht, List.take_append_of_le_length h.nc]
  have hun : s'.units.take st.nUnits = s.units.take st.nUnits := by
    obtain ⟨t, ht⟩ := he.units
    rw [← ht, List.take_append_of_le_length h.nu]
  have ham : s'.ams.take st.nAms = s.ams.take st.nAms := by
    obtain ⟨t, ht⟩ := he.ams
    rw [← ht, List.take_append_of_le_length h.na]
  refine h.move (by rw [he.stateId]; exact h.idlt) (Nat.le_trans h.nv he.nVars) hcl (Nat.le_trans h.nc he.clauses.length_le) hun (Nat.le_trans h.nu he.units.length_le) ham
    (Nat.le_trans h.na he.ams.length_le) (fun c hc => he.am c (List.mem_of_mem_take hc)) ?_
  rintro c (hc | ⟨hc, hk⟩)
  · rw [hcl] at hc
    exact ⟨Or.inl hc, he.old c (List.mem_of_mem_take hc)⟩
  · rcases he.lr c hc with ⟨h1, h2, h3⟩ | h1
    · exact ⟨Or.inr ⟨h1, fun k hk' => hk k (h3.trans hk')⟩, h2⟩
    · have := hk _ h1
      have := h.idlt
      omega

theorem Kept.save {s : S} {st : Saved} {Φ : (Nat → Bool) → Prop} (h : Kept s st Φ) : Kept (saveState s).1 st Φ :=
  h.move (Nat.lt_succ_of_lt h.idlt) h.nv rfl h.nc rfl h.nu rfl h.na (fun _ _ => .refl _) fun _ hc => ⟨hc, .refl _⟩

theorem detach_eq (s t : S) (i : Nat) (h1 : t.cls = s.cls) (h2 : t.watches = s.watches) (h3 : t.watchesBin = s.watchesBin) :
    detach t i = { t with watches := (detach s i).watches, watchesBin := (detach s i).watchesBin } := by
  unfold detach
  dsimp only
  rw [h1, h2, h3]
  by_cases hk : (s.cls i).rest.isEmpty = true
  · rw [if_pos hk, if_pos hk, ← h2]
  · rw [if_neg hk, if_neg hk, ← h3]

theorem detachAll_eq : ∀ (is : List Nat) (s : S), ∃ W B, ∀ t : S, t.cls = s.cls → t.watches = s.watches → t.watchesBin = s.watchesBin →
    is.foldl detach t = { t with watches := W, watchesBin := B }
  | [], s => ⟨s.watches, s.watchesBin, fun t _ h2 h3 => by rw [← h2, ← h3]; rfl⟩
  | i :: is, s => by
    obtain ⟨W, B, ih⟩ := detachAll_eq is (detach s i)
    refine ⟨W, B, fun t h1 h2 h3 => ?_⟩
    have hcls : (detach s i).cls = s.cls := by
      obtain ⟨w, wb, e⟩ := detach_fields s i
      rw [e]
    rw [List.foldl_cons, detach_eq s t i h1 h2 h3]
    exact ih { t with watches := (detach s i).watches, watchesBin := (detach s i).watchesBin } (by rw [hcls]; exact h1) rfl rfl

theorem detachAll_spec {Φ : (Nat → Bool) → Prop} {J : Nat → Prop} {ex : Nat → Nat → Prop} : ∀ (is : List Nat) (s : S), PI Φ J s ex → s.trail = [] → (∀ i ∈ is, s.am i = none) → ∀ C L : List Nat,
    (C ++ L).Nodup → (∀ x, x ∈ C ++ L ↔ x ∈ s.att ∧ x ∉ is) → PI Φ J { is.foldl detach s with clauses := C, learnts := L } ex
  | [], s, h, ht, _, C, L, hn, hm => by
    have hm : ∀ x, x ∈ C ++ L ↔ x ∈ s.att := fun x => by rw [hm x]; simp
    have hin : ∀ c, c ∈ C ++ L → c ∈ s.att := fun c hc => (hm c).1 hc
    refine ⟨⟨fun c hc => h.d.idlt c (hin c hc), hn, fun c hc => h.d.clNodup c (hin c hc), fun c hc => h.d.range c (hin c hc), h.d.wNodup, ?_, fun c hc => h.d.wAll c (hin c hc), ?_,
        fun c hc => h.d.bAll c (hin c hc), h.d.seen0, fun c hc => h.d.wOne c (hin c hc)⟩,
      ⟨h.t.tval, h.t.trange, h.t.tlev, h.t.tdup, ?_, h.t.tlimS, h.t.tlimLe, h.t.heapAll, h.t.qle⟩,
      ⟨fun c hc => h.m.db c (hin c hc), h.m.imp0, fun c hc => h.m.jcl c (hin c hc), h.m.jtr⟩, h.q, fun c hc => h.w c (hin c hc),
      ⟨h.a.idlt, h.a.new, h.a.nd, h.a.isam, fun c hc => h.a.att c (hin c hc), h.a.bin, h.a.nodup, h.a.pos, h.a.range, h.a.two, h.a.wm, h.a.wa, h.a.sem, h.a.jcl, h.a.w, h.a.full⟩⟩
    · intro l c b hb hcm
      obtain ⟨h1, h2⟩ := h.d.wMem l c b hb hcm
      exact ⟨(hm c).2 h1, h2⟩
    · intro l c b hb
      obtain ⟨h1, h2⟩ := h.d.bMem l c b hb
      exact ⟨(hm c).2 h1, h2⟩
    · intro l rest hsf hp
      have hsf : l :: rest <:+ s.trail := hsf
      rw [ht] at hsf; simp at hsf
  | i :: is, s, h, ht, hia, C, L, hn, hm => by
    have h1 := detach_spec (i := i) (C := s.clauses.filter (· != i)) (L := s.learnts.filter (· != i)) h (hia i List.mem_cons_self) (fun l rest hsf => by rw [ht] at hsf; simp at hsf)
      (by rw [← List.filter_append]; exact h.d.nodupAtt.filter _) (fun x => by rw [← List.filter_append, List.mem_filter]; simp [S.att])
    have e := detach_eq s { s with clauses := s.clauses.filter (· != i), learnts := s.learnts.filter (· != i) } i rfl rfl rfl
    rw [e] at h1
    have ih := detachAll_spec is _ h1 ht (fun j hj => hia j (List.mem_cons_of_mem _ hj)) C L hn (fun x => by
      rw [hm x]
      show _ ↔ x ∈ s.clauses.filter (· != i) ++ s.learnts.filter (· != i) ∧ _
      rw [← List.filter_append, List.mem_filter, List.mem_cons]
      simp only [S.att, bne_iff_ne, ne_eq]
      constructor
      · rintro ⟨a, b⟩; exact ⟨⟨a, fun e => b (Or.inl e)⟩, fun e => b (Or.inr e)⟩
      · rintro ⟨⟨a, b⟩, c⟩; exact ⟨a, fun e => e.elim b c⟩)
    obtain ⟨W, B, hall⟩ := detachAll_eq is (detach s i)
    have hd := detach_eq s s i rfl rfl rfl
    have hcls : (detach s i).cls = s.cls := by rw [hd]
    rw [hall { s with clauses := s.clauses.filter (· != i), learnts := s.learnts.filter (· != i), watches := (detach s i).watches, watchesBin := (detach s i).watchesBin }
      hcls.symm rfl rfl] at ih
    rw [List.foldl_cons, hall (detach s i) rfl rfl rfl, hd]
    exact ih

theorem foldl_filter_watches (p : Nat × Nat → Bool) : ∀ (ls : List Nat) (w : Nat → List (Nat × Nat)) (l : Nat),
    ls.foldl (fun w l => upd w l ((w l).filter p)) w l = if l ∈ ls then (w l).filter p else w l
  | [], w, l => by simp
  | x :: xs, w, l => by
    rw [List.foldl_cons, foldl_filter_watches p xs]
    by_cases e : l = x
    · subst e
      rw [upd_same, if_pos List.mem_cons_self]
      split
      · rw [List.filter_filter]; simp
      · rfl
    · rw [upd_ne _ _ e]
      simp [e]

/-- the watcher belongs to a removed at-most clause -/
def amGone (s : S) (is : List Nat) (l : Nat) (e : Nat × Nat) : Bool :=
  decide (e.1 ∈ is) && (match s.am e.1 with
    | some k => decide (l ∈ k.w)
    | none => false)

theorem detachAms_eq : ∀ (is : List Nat) (t : S), is.foldl detachAm t = { t with watches := fun l => (t.watches l).filter fun e => !amGone t is l e }
  | [], t => by
    have : (fun l => (t.watches l).filter fun e => !amGone t [] l e) = t.watches := by
      funext l
      rw [List.filter_eq_self]
      intro e _; rfl
    rw [this]; rfl
  | i :: is, t => by
    rw [List.foldl_cons, detachAms_eq is]
    have hd : detachAm t i = { t with watches := fun l => (t.watches l).filter fun e => !amGone t [i] l e } := by
      unfold detachAm
      cases hk : t.am i with
      | none =>
        have : (fun l => (t.watches l).filter fun e => !amGone t [i] l e) = t.watches := by
          funext l
          rw [List.filter_eq_self]
          intro e _
          unfold amGone
          by_cases he : e.1 = i
          · rw [he, hk]; simp
          · simp [he]
        rw [this]
      | some k =>
        dsimp only
        congr 1
        funext l
        rw [foldl_filter_watches]
        by_cases hl : l ∈ k.w
        · rw [if_pos hl]
          apply List.filter_congr
          intro e _
          unfold amGone
          by_cases he : e.1 = i
          · rw [he, hk]; simp [hl]
          · simp [he]
        · rw [if_neg hl]
          symm
          rw [List.filter_eq_self]
          intro e _
          unfold amGone
          by_cases he : e.1 = i
          · rw [he, hk]; simp [hl]
          · simp [he]
    rw [hd]
    congr 1
    funext l
    dsimp only
    rw [List.filter_filter]
    apply List.filter_congr
    intro e _
    unfold amGone
    dsimp only
    cases t.am e.1 with
    | none => simp
    | some k => by_cases h1 : e.1 = i <;> by_cases h2 : e.1 ∈ is <;> by_cases h3 : l ∈ k.w <;> simp [h1, h2, h3]

/-- at-most clauses are removed -/
theorem detachAms_spec {Φ : (Nat → Bool) → Prop} {J : Nat → Prop} {ex : Nat → Nat → Prop} (is : List Nat) {s : S} (h : PI Φ J s ex) (ht : s.trail = []) (N : List Nat) (hn : N.Nodup)
    (hm : ∀ x, x ∈ N ↔ x ∈ s.ams ∧ x ∉ is) : PI Φ J { is.foldl detachAm s with ams := N } ex := by
  rw [detachAms_eq]
  have hin : ∀ c ∈ N, c ∈ s.ams := fun c hc => ((hm c).1 hc).1
  have hW : ∀ l e, e ∈ (s.watches l).filter (fun e => !amGone s is l e) ↔ e ∈ s.watches l ∧ amGone s is l e = false := by
    intro l e; rw [List.mem_filter]; simp
  have hnone : ∀ l e, s.am e.1 = none → amGone s is l e = false := by
    intro l e he; unfold amGone; rw [he]; simp
  have hatt : ∀ c b l, c ∈ s.att → amGone s is l (c, b) = false := fun c b l hc => hnone l (c, b) (h.a.att c hc)
  refine ⟨⟨h.d.idlt, h.d.nodupAtt, h.d.clNodup, h.d.range, ?_, ?_, ?_, h.d.bMem, h.d.bAll, h.d.seen0, ?_⟩,
    ⟨h.t.tval, h.t.trange, h.t.tlev, h.t.tdup, ?_, h.t.tlimS, h.t.tlimLe, h.t.heapAll, h.t.qle⟩, ⟨h.m.db, h.m.imp0, h.m.jcl, h.m.jtr⟩, h.q, ?_,
    ⟨fun c hc => h.a.idlt c (hin c hc), h.a.new, hn, fun c hc => h.a.isam c (hin c hc), h.a.att, h.a.bin, fun c hc => h.a.nodup c (hin c hc), fun c hc => h.a.pos c (hin c hc),
      fun c hc => h.a.range c (hin c hc), fun c hc => h.a.two c (hin c hc), ?_, ?_, fun c hc => h.a.sem c (hin c hc), fun c hc => h.a.jcl c (hin c hc), fun c hc => h.a.w c (hin c hc), h.a.full⟩⟩
  · exact fun l => (h.d.wNodup l).sublist (List.filter_sublist.map _)
  · exact fun l c b hb hk => h.d.wMem l c b ((hW l _).1 hb).1 hk
  · intro c hc hr w hw
    obtain ⟨e, he, h1⟩ := List.mem_map.1 (h.d.wAll c hc hr w hw)
    refine List.mem_map.2 ⟨e, (hW _ _).2 ⟨he, hnone _ e ?_⟩, h1⟩
    rw [h1]; exact h.a.att c hc
  · intro c hc hr
    rcases h.d.wOne c hc hr with h1 | h1
    · exact Or.inl ((hW _ _).2 ⟨h1, hatt _ _ _ hc⟩)
    · exact Or.inr ((hW _ _).2 ⟨h1, hatt _ _ _ hc⟩)
  · intro l rest hsf
    have hsf : l :: rest <:+ s.trail := hsf
    rw [ht] at hsf; simp at hsf
  · intro c hc w hw hp hex
    obtain ⟨y, h1, h2, h3, h4⟩ := h.w c hc w hw hp hex
    exact ⟨y, h1, h2, h3, fun hr => (hW _ _).2 ⟨h4 hr, hatt _ _ _ hc⟩⟩
  · intro l c b k hb hk
    obtain ⟨h1, h2⟩ := (hW l _).1 hb
    obtain ⟨h3, h4⟩ := h.a.wm l c b k h1 hk
    refine ⟨(hm c).2 ⟨h3, fun hi => ?_⟩, h4⟩
    have hk : s.am c = some k := hk
    unfold amGone at h2
    dsimp only at h2
    rw [hk] at h2
    simp [hi, h4] at h2
  · intro c hc k hk x hx
    obtain ⟨e, he, h1⟩ := List.mem_map.1 (h.a.wa c (hin c hc) k hk x hx)
    refine List.mem_map.2 ⟨e, (hW _ _).2 ⟨he, ?_⟩, h1⟩
    unfold amGone
    rw [h1]
    simp [((hm c).1 hc).2]

/-- unit clauses of a saved state are set again; nothing else than the assignment of that time comes out -/
theorem reUnits_spec {Φ : (Nat → Bool) → Prop} {T : Nat → Prop} (hT : ∀ l, T l → ¬ T (neg l)) (fuel : Nat) : ∀ (ls : List Nat) (s s' : S), PI Φ T s (fun _ _ => False) →
    s.qhead = s.trail.length → s.dl = 0 → s.ok = true → (∀ l ∈ ls, T l ∧ l / 2 < s.nVars ∧ ∀ u, Φ u → lv u l = true) → (∀ c ∈ s.att, ¬ ∀ q ∈ (s.cls c).lits, T (neg q)) →
    (∀ c ∈ s.ams, ∀ k, s.am c = some k → AmClosed T k) → reUnits fuel s ls = some s' →
    PI Φ T s' (fun _ _ => False) ∧ s'.qhead = s'.trail.length ∧ s'.dl = 0 ∧ s'.ok = true ∧ Evo s s' ∧ s'.units = s.units ∧ s'.heap = s.heap ∧ s.trail <:+ s'.trail ∧ ∀ l ∈ ls, l ∈ s'.trail
  | [], s, s', h, hq, hd, ho, _, _, _, he => by
    cases he
    exact ⟨h, hq, hd, ho, Evo.refl _, rfl, rfl, List.suffix_refl _, by simp⟩
  | l :: ls, s, s', h, hq, hd, ho, hl, hc, hca, he => by
    unfold reUnits at he
    rw [if_neg (by rw [ho]; simp)] at he
    obtain ⟨l1, l2, l3⟩ := hl l List.mem_cons_self
    have hpe : PI Φ T (enqueue s l none) (fun _ _ => False) := by
      refine h.enqueue ?_ l2 (fun e => by omega) (fun _ => l3) l1 (fun _ e => by cases e)
      cases hv : s.value l with
      | none => exact Or.inl rfl
      | some b =>
        cases b with
        | true => exact Or.inr ⟨rfl, hd⟩
        | false => exact absurd (h.m.jtr _ ((h.t.false_iff l).1 hv)) (hT l l1)
    cases hp : propagate fuel (enqueue s l none) with
    | none => rw [hp] at he; cases he
    | some x =>
      obtain ⟨s1, r⟩ := x
      rw [hp] at he
      dsimp only at he
      obtain ⟨f, hp1⟩ := propagate_spec fuel _ s1 r hpe hp
      have hatt : s1.att = s.att := by
        show s1.clauses ++ s1.learnts = s.clauses ++ s.learnts
        rw [f.clauses, f.learnts]; rfl
      have hc1 : ∀ c ∈ s1.att, ¬ ∀ q ∈ (s1.cls c).lits, T (neg q) := by
        intro c hca hall
        rw [hatt] at hca
        exact hc c hca fun q hq => hall q ((f.lits c).mem_iff.2 hq)
      have hca1 : ∀ c ∈ s1.ams, ∀ k, s1.am c = some k → AmClosed T k := by
        intro c hc k hk
        have h1 := f.am c
        rw [hk] at h1
        obtain ⟨k', e1, e2, e3⟩ := h1.is
        rw [f.ams] at hc
        exact (hca c hc k' e1).perm e2 e3
      have hnone : r = none := by
        cases r with
        | none => rfl
        | some c =>
          exfalso
          rcases hp1.kind with ⟨k1, k2⟩ | ⟨k1, k, k2, k3⟩
          · exact hc1 c k2 fun q hq => hp1.pi.m.jtr _ (hp1.fls q (by rw [conflLits_none k1]; exact hq))
          · have := (hca1 c k1 k k2 (k.lits.filter fun q => decide (q ∈ s1.trail)) ((hp1.pi.a.nodup c k1 k k2).filter _) fun y hy => by
              obtain ⟨y1, y2⟩ := List.mem_filter.1 hy
              exact ⟨y1, hp1.pi.m.jtr y (by simpa using y2)⟩).1
            omega
      subst hnone
      have hev : Evo s { s1 with ok := true } := by
        have h0 : Evo s (enqueue s l none) := ⟨rfl, rfl, rfl, rfl, fun _ _ => .refl _, fun _ hc => Or.inl ⟨hc, .refl _, rfl⟩, List.prefix_refl _, rfl, fun _ => .refl _⟩
        have := h0.trans f.evo
        exact ⟨this.nVars, this.clauses, this.stateId, this.valid, this.old, this.lr, this.units, this.ams, this.am⟩
      have htr : (l :: s.trail) <:+ s1.trail := f.trail
      have hd1 : S.dl { s1 with ok := true } = 0 := by
        have : s1.trailLim = s.trailLim := f.trailLim
        unfold S.dl; rw [this]; exact hd
      have hn1 : s1.nVars = s.nVars := f.nVars
      obtain ⟨i1, i2, i3, i4, i5, i6, i7, i8, i9⟩ := reUnits_spec hT fuel ls { s1 with ok := true } s' (hp1.1.irrel rfl) hp1.2 hd1 rfl
        (fun x hx => by
          obtain ⟨a, b, c⟩ := hl x (List.mem_cons_of_mem _ hx)
          refine ⟨a, ?_, c⟩
          show x / 2 < s1.nVars
          rw [hn1]; exact b) hc1 hca1 he
      refine ⟨i1, i2, i3, i4, hev.trans i5, i6.trans f.units, i7.trans f.heap, ((List.suffix_cons _ _).trans htr).trans i8, fun x hx => ?_⟩
      rcases List.mem_cons.1 hx with rfl | hx
      · exact i8.subset (htr.subset List.mem_cons_self)
      · exact i9 x hx

/-- a saved state lies before another -/
structure Before (a b : Saved) : Prop where
  id : a.id < b.id
  nv : a.nVars ≤ b.nVars
  nc : a.nClauses ≤ b.nClauses
  nu : a.nUnits ≤ b.nUnits
  na : a.nAms ≤ b.nAms

theorem load_spec {Ψ Φ : (Nat → Bool) → Prop} {s s' : S} {st : Saved} {fuel i : Nat} {b : Bool} (h : RS Ψ s) (hk : Kept s st Φ) (hi : s.valid.findIdx? (· == st.id) = some i)
    (he : loadState fuel s st = some (s', b)) :
    b = true ∧ RS Φ s' ∧ s'.nVars = st.nVars ∧ s'.stateId = s.stateId ∧ s'.valid = s.valid.take (i + 1) ∧ Kept s' st Φ ∧
      (∀ st' Φ', Before st' st → Kept s st' Φ' → Kept s' st' Φ') ∧ s'.ams = s.ams.take st.nAms := by
  obtain ⟨ex, hp⟩ := h.pi
  unfold loadState at he
  rw [hi] at he
  dsimp only at he
  -- the state without assignment
  obtain ⟨sB, hsB⟩ : ∃ sB, sB = completeBacktrack { s with valid := s.valid.take (i + 1) } := ⟨_, rfl⟩
  rw [← hsB] at he
  have hval : ∀ v, sB.val v = none := by
    intro v
    rw [hsB]
    show (if v < s.nVars then none else s.val v) = none
    split
    · rfl
    · rename_i hv
      cases hvv : s.val v with
      | none => rfl
      | some b =>
        exfalso
        have : ∃ l, l / 2 = v ∧ s.value l = some true := by
          cases b with
          | true => exact ⟨2 * v, by omega, by unfold S.value; rw [if_neg (by omega)]; rw [show 2 * v / 2 = v by omega]; exact hvv⟩
          | false => exact ⟨2 * v + 1, by omega, by unfold S.value; rw [if_pos (by omega)]; rw [show (2 * v + 1) / 2 = v by omega, hvv]; rfl⟩
        obtain ⟨l, h1, h2⟩ := this
        have := hp.t.trange l ((hp.t.tval l).1 h2)
        omega
  have hheap : ∀ v, v ∈ sB.heap ↔ v < s.nVars := by
    intro v
    rw [hsB]
    show v ∈ (List.range s.nVars).foldl insHeap s.heap ↔ _
    rw [mem_foldl_insHeap]
    constructor
    · rintro (hv | hv)
      · exact h.hr v hv
      · exact List.mem_range.1 hv
    · exact fun hv => Or.inr (List.mem_range.2 hv)
  have e1 : sB.nVars = s.nVars := by rw [hsB]; rfl
  have e2 : sB.clauses = s.clauses := by rw [hsB]; rfl
  have e3 : sB.learnts = s.learnts := by rw [hsB]; rfl
  have e4 : sB.cls = s.cls := by rw [hsB]; rfl
  have e5 : sB.trail = [] := by rw [hsB]; rfl
  have e6 : sB.trailLim = [] := by rw [hsB]; rfl
  have e7 : sB.qhead = 0 := by rw [hsB]; rfl
  have e8 : sB.units = s.units := by rw [hsB]; rfl
  have e9 : sB.stateId = s.stateId := by rw [hsB]; rfl
  have e10 : sB.valid = s.valid.take (i + 1) := by rw [hsB]; rfl
  have e11 : sB.seen = s.seen := by rw [hsB]; rfl
  have e12 : sB.watches = s.watches := by rw [hsB]; rfl
  have e13 : sB.watchesBin = s.watchesBin := by rw [hsB]; rfl
  have e14 : sB.nextId = s.nextId := by rw [hsB]; rfl
  have e15 : sB.ams = s.ams := by rw [hsB]; rfl
  have e16 : sB.am = s.am := by rw [hsB]; rfl
  have hattB : sB.att = s.att := by unfold S.att; rw [e2, e3]
  have hvalB : ∀ l, sB.value l = none := by
    intro l; unfold S.value; rw [hval]; split <;> rfl
  have hB : PI (fun _ => False) TT sB (fun _ _ => False) := by
    refine ⟨⟨?_, ?_, ?_, ?_, ?_, ?_, ?_, ?_, ?_, ?_, ?_⟩, ⟨?_, ?_, ?_, ?_, ?_, ?_, ?_, ?_, ?_⟩, ⟨?_, ?_, fun _ _ _ _ _ => trivial, fun _ _ => trivial⟩, ?_, ?_, ?_⟩
    · rw [hattB, e14]; exact hp.d.idlt
    · rw [hattB]; exact hp.d.nodupAtt
    · rw [hattB, e4]; exact hp.d.clNodup
    · rw [hattB, e4, e1]; exact hp.d.range
    · rw [e12]; exact hp.d.wNodup
    · rw [e12, hattB, e4, e16]; exact hp.d.wMem
    · rw [e12, hattB, e4]; exact hp.d.wAll
    · rw [e13, hattB, e4]; exact hp.d.bMem
    · rw [e13, hattB, e4]; exact hp.d.bAll
    · rw [e11]; exact hp.d.seen0
    · rw [e12, hattB, e4]; exact hp.d.wOne
    · intro l; rw [hvalB, e5]; simp
    · rw [e5]; simp
    · intro l rest hs; rw [e5] at hs; simp at hs
    · intro l rest hs; rw [e5] at hs; simp at hs
    · intro l rest hs; rw [e5] at hs; simp at hs
    · rw [e6]; exact List.Pairwise.nil
    · rw [e6]; simp
    · intro v hv _; rw [hheap]; rw [e1] at hv; exact hv
    · rw [e7]; exact Nat.zero_le _
    · intro c _ u hu; exact hu.elim
    · intro l _ _ u hu; exact hu.elim
    · intro l rest hs; rw [e5] at hs; simp at hs
    · intro c _ w _ hpr
      unfold S.proc at hpr
      rw [e5] at hpr; simp at hpr
    · refine ⟨by rw [e15, e14]; exact hp.a.idlt, by rw [e14, e16]; exact hp.a.new, by rw [e15]; exact hp.a.nd, by rw [e15, e16]; exact hp.a.isam, by rw [hattB, e16]; exact hp.a.att,
        by rw [e13, e16]; exact hp.a.bin, by rw [e15, e16]; exact hp.a.nodup, by rw [e15, e16]; exact hp.a.pos, by rw [e15, e16, e1]; exact hp.a.range, by rw [e15, e16]; exact hp.a.two,
        by rw [e12, e15, e16]; exact hp.a.wm, by rw [e12, e15, e16]; exact hp.a.wa, fun _ _ _ _ _ hu => hu.elim, fun _ _ _ _ _ _ _ _ _ _ _ => trivial, ?_, ?_⟩
      · intro c _ k _ x _ hpr
        unfold S.proc at hpr
        rw [e5] at hpr; simp at hpr
      · rw [e5]; simp
  -- the clauses added later go
  have hsplit : s.clauses.take st.nClauses ++ s.clauses.drop st.nClauses = s.clauses := List.take_append_drop _ _
  have hnd : (s.clauses ++ s.learnts).Nodup := hp.d.nodupAtt
  obtain ⟨W1, B1, hA⟩ := detachAll_eq (s.clauses.drop st.nClauses) sB
  have hp1 := detachAll_spec (s.clauses.drop st.nClauses) sB hB e5 (fun i hi => by rw [e16]; exact hp.a.att i (List.mem_append_left _ (List.mem_of_mem_drop hi))) (s.clauses.take st.nClauses) s.learnts
    (hnd.sublist (List.Sublist.append_right (List.take_sublist _ _) _)) (fun x => by
      show _ ↔ x ∈ sB.att ∧ _
      rw [hattB]
      show _ ↔ x ∈ s.clauses ++ s.learnts ∧ _
      have hd : List.Disjoint (s.clauses.take st.nClauses) (s.clauses.drop st.nClauses) ∧ List.Disjoint (s.clauses.drop st.nClauses) s.learnts := by
        rw [← hsplit] at hnd
        have h1 := List.nodup_append.1 hnd
        have h2 := List.nodup_append.1 h1.1
        exact ⟨fun a ha hb => h2.2.2 a ha a hb rfl, fun a ha hb => h1.2.2 a (List.mem_append_right _ ha) a hb rfl⟩
      constructor
      · intro hx
        rcases List.mem_append.1 hx with hx | hx
        · exact ⟨List.mem_append_left _ (List.mem_of_mem_take hx), fun e => hd.1 hx e⟩
        · exact ⟨List.mem_append_right _ hx, fun e => hd.2 e hx⟩
      · rintro ⟨hx, hn⟩
        rcases List.mem_append.1 hx with hx | hx
        · rw [← hsplit] at hx
          rcases List.mem_append.1 hx with hx | hx
          · exact List.mem_append_left _ hx
          · exact absurd hx hn
        · exact List.mem_append_right _ hx)
  rw [hA sB rfl rfl rfl] at hp1
  -- the learnt clauses of later states go
  obtain ⟨old, hold⟩ : ∃ old : Nat → Bool, old = fun c => isOld st.id (s.cls c) := ⟨_, rfl⟩
  have holdI : ∀ c, old c = true ↔ ∀ k, (s.cls c).learntOn = some k → k ≤ st.id := by
    intro c
    rw [hold]
    unfold isOld
    dsimp only
    cases (s.cls c).learntOn with
    | none => simp
    | some k => simp
  obtain ⟨sC, hsC⟩ : ∃ sC, sC = { sB with watches := W1, watchesBin := B1, clauses := s.clauses.take st.nClauses, learnts := s.learnts } := ⟨_, rfl⟩
  have hp1 : PI (fun _ => False) TT sC (fun _ _ => False) := by rw [hsC]; exact hp1
  -- the at-most clauses added later go
  have hndA : s.ams.Nodup := hp.a.nd
  have hpA := detachAms_spec (s.ams.drop st.nAms) hp1 (by rw [hsC]; exact e5) (s.ams.take st.nAms) (hndA.sublist (List.take_sublist _ _)) (fun x => by
    have : sC.ams = s.ams := by rw [hsC]; exact e15
    rw [this]
    have hsp : s.ams.take st.nAms ++ s.ams.drop st.nAms = s.ams := List.take_append_drop _ _
    constructor
    · intro hx
      refine ⟨List.mem_of_mem_take hx, fun hd => ?_⟩
      rw [← hsp] at hndA
      exact (List.nodup_append.1 hndA).2.2 x hx x hd rfl
    · rintro ⟨h1, h2⟩
      rw [← hsp] at h1
      rcases List.mem_append.1 h1 with h1 | h1
      · exact h1
      · exact absurd h1 h2)
  rw [detachAms_eq] at hpA
  obtain ⟨WA, hWA⟩ : ∃ WA : Nat → List (Nat × Nat), WA = fun l => (W1 l).filter fun e => !amGone s (s.ams.drop st.nAms) l e := ⟨_, rfl⟩
  have hgone : ∀ t : S, t.am = s.am → amGone t (s.ams.drop st.nAms) = amGone s (s.ams.drop st.nAms) := by
    intro t ht; unfold amGone; rw [ht]
  obtain ⟨sD, hsD⟩ : ∃ sD, sD = { sB with watches := WA, watchesBin := B1, clauses := s.clauses.take st.nClauses, learnts := s.learnts, ams := s.ams.take st.nAms } := ⟨_, rfl⟩
  have hpA : PI (fun _ => False) TT sD (fun _ _ => False) := by
    rw [hsD, hWA]
    rw [hgone sC (by rw [hsC]; exact e16), hsC] at hpA
    exact hpA
  obtain ⟨W2, B2, hA2⟩ := detachAll_eq (s.learnts.filter fun c => !old c) sD
  have hp2 := detachAll_spec (s.learnts.filter fun c => !old c) sD hpA (by rw [hsD]; exact e5)
    (fun i hi => by rw [hsD]; show sB.am i = none; rw [e16]; exact hp.a.att i (List.mem_append_right _ (List.mem_filter.1 hi).1))
    (s.clauses.take st.nClauses) (s.learnts.filter old) (hnd.sublist (List.Sublist.append (List.take_sublist _ _) List.filter_sublist)) (fun x => by
      have : sD.att = s.clauses.take st.nClauses ++ s.learnts := by rw [hsD]; rfl
      rw [this]
      rw [List.mem_append, List.mem_append, List.mem_filter, List.mem_filter]
      have hd : x ∈ s.clauses.take st.nClauses → x ∉ s.learnts := fun ha hb => (List.nodup_append.1 hnd).2.2 x (List.mem_of_mem_take ha) x hb rfl
      constructor
      · rintro (hx | ⟨hx, ho⟩)
        · exact ⟨Or.inl hx, fun e => hd hx e.1⟩
        · exact ⟨Or.inr hx, fun e => by have := e.2; rw [ho] at this; cases this⟩
      · rintro ⟨hx | hx, hn⟩
        · exact Or.inl hx
        · refine Or.inr ⟨hx, ?_⟩
          cases ho : old x with
          | true => rfl
          | false => exact absurd ⟨hx, by rw [ho]; rfl⟩ hn)
  rw [hA2 sD rfl rfl rfl] at hp2
  -- the state before the unit clauses are set
  have hmin : min st.nVars sB.nVars = st.nVars := by rw [e1]; exact Nat.min_eq_left hk.nv
  obtain ⟨s4, hs4⟩ : ∃ s4, s4 = dropRest st.nVars st.nUnits (dropLearnts st.id (dropAms st.nAms (dropClauses st.nClauses (dropVars st.nVars { sB with ok := st.ok })))) := ⟨_, rfl⟩
  rw [hmin, ← hs4] at he
  have hs4 : s4 = { sB with
      ok := st.ok, nVars := st.nVars, heap := sB.heap.filter (· < st.nVars), clauses := s.clauses.take st.nClauses, learnts := s.learnts.filter old, ams := s.ams.take st.nAms
      watches := fun l => if l < 2 * st.nVars then W2 l else [], watchesBin := fun l => if l < 2 * st.nVars then B2 l else [], units := s.units.take st.nUnits } := by
    have hd1 : dropClauses st.nClauses (dropVars st.nVars { sB with ok := st.ok }) =
        { sB with ok := st.ok, nVars := st.nVars, heap := sB.heap.filter (· < st.nVars), watches := W1, watchesBin := B1, clauses := s.clauses.take st.nClauses } := by
      unfold dropClauses
      have : (dropVars st.nVars { sB with ok := st.ok }).clauses = s.clauses := e2
      rw [this]
      have := hA (dropVars st.nVars { sB with ok := st.ok }) rfl rfl rfl
      rw [this]; rfl
    have hdA : ∀ t : S, t.ams = s.ams → t.am = s.am → t.watches = W1 → dropAms st.nAms t = { t with watches := WA, ams := s.ams.take st.nAms } := by
      intro t h1 h2 h3
      unfold dropAms
      rw [h1, detachAms_eq, hgone t h2, h3, ← hWA]
    rw [hs4, hd1, hdA { sB with ok := st.ok, nVars := st.nVars, heap := sB.heap.filter (· < st.nVars), watches := W1, watchesBin := B1, clauses := s.clauses.take st.nClauses } e15 e16 rfl]
    have hd2 : ∀ t : S, t.cls = s.cls → t.learnts = s.learnts → t.watches = WA → t.watchesBin = B1 →
        dropLearnts st.id t = { t with watches := W2, watchesBin := B2, learnts := s.learnts.filter old } := by
      intro t h1 h2 h3 h4
      unfold dropLearnts
      rw [h1, h2]
      have := hA2 t (by rw [h1, hsD]; exact e4.symm) (by rw [h3, hsD]) (by rw [h4, hsD])
      rw [hold] at this ⊢
      rw [this, ← h1]
    rw [hd2 { sB with ok := st.ok, nVars := st.nVars, heap := sB.heap.filter (· < st.nVars), watches := WA, watchesBin := B1, clauses := s.clauses.take st.nClauses, ams := s.ams.take st.nAms } e4 e3 rfl rfl]
    unfold dropRest
    rw [← e8]
  have hatt4 : s4.att = s.clauses.take st.nClauses ++ s.learnts.filter old := by rw [hs4]; rfl
  have hcls4 : s4.cls = s.cls := by rw [hs4]; exact e4
  have hun4 : s4.units = s.units.take st.nUnits := by rw [hs4]
  have hkeep : ∀ c ∈ s4.att, s.keeps st c := by
    intro c hc
    rw [hatt4] at hc
    rcases List.mem_append.1 hc with hc | hc
    · exact Or.inl hc
    · exact Or.inr ⟨(List.mem_filter.1 hc).1, (holdI c).1 (List.mem_filter.1 hc).2⟩
  have hD4 : Db s4 := by
    have hd := hp2.d
    have hcl2 : sD.cls = s.cls := by rw [hsD]; exact e4
    have hrng : ∀ c ∈ s4.att, ∀ l ∈ (s4.cls c).lits, l / 2 < s4.nVars := by
      intro c hc l hl
      rw [hcls4] at hl
      have : s4.nVars = st.nVars := by rw [hs4]
      rw [this]
      exact hk.rng c (hkeep c hc) l hl
    have hw : ∀ l, l < 2 * st.nVars → s4.watches l = W2 l := by
      intro l hl; rw [hs4]; dsimp only; rw [if_pos hl]
    have hw' : ∀ l, ¬ l < 2 * st.nVars → s4.watches l = [] := by
      intro l hl; rw [hs4]; dsimp only; rw [if_neg hl]
    have hb : ∀ l, l < 2 * st.nVars → s4.watchesBin l = B2 l := by
      intro l hl; rw [hs4]; dsimp only; rw [if_pos hl]
    have hb' : ∀ l, ¬ l < 2 * st.nVars → s4.watchesBin l = [] := by
      intro l hl; rw [hs4]; dsimp only; rw [if_neg hl]
    have hlt : ∀ c ∈ s4.att, ∀ w, (w = (s4.cls c).a ∨ w = (s4.cls c).b) → neg w < 2 * st.nVars := by
      intro c hc w hw
      have h1 := hrng c hc w (by rcases hw with hw | hw <;> rw [hw] <;> simp [Cls.lits])
      have h2 : s4.nVars = st.nVars := by rw [hs4]
      have h3 := neg_var w
      omega
    have hcl4 : s4.cls = sD.cls := by rw [hcls4, hcl2]
    refine ⟨?_, ?_, ?_, hrng, ?_, ?_, ?_, ?_, ?_, ?_, ?_⟩
    · intro c hc
      rw [hatt4] at hc
      have h1 := hd.idlt c hc
      have : s4.nextId = sD.nextId := by rw [hs4, hsD]
      rw [this]; exact h1
    · rw [hatt4]; exact hd.nodupAtt
    · intro c hc
      rw [hcl4]
      rw [hatt4] at hc
      exact hd.clNodup c hc
    · intro l
      by_cases hl : l < 2 * st.nVars
      · rw [hw l hl]; exact hd.wNodup l
      · rw [hw' l hl]; simp
    · intro l c b hm hcm
      by_cases hl : l < 2 * st.nVars
      · rw [hw l hl] at hm
        rw [hatt4, hcl4]
        exact hd.wMem l c b hm (by have h1 : s4.am = sD.am := by rw [hs4, hsD]
                                   rw [← h1]; exact hcm)
      · rw [hw' l hl] at hm; cases hm
    · intro c hc hr w hww
      rw [hw _ (hlt c hc w hww)]
      rw [hcl4] at hr hww
      rw [hatt4] at hc
      exact hd.wAll c hc hr w hww
    · intro l c b hm
      by_cases hl : l < 2 * st.nVars
      · rw [hb l hl] at hm
        rw [hatt4, hcl4]
        exact hd.bMem l c b hm
      · rw [hb' l hl] at hm; cases hm
    · intro c hc hr w hww
      rw [hb _ (hlt c hc w hww)]
      rw [hcl4] at hr hww
      rw [hatt4] at hc
      exact hd.bAll c hc hr w hww
    · intro v
      have : s4.seen = sD.seen := by rw [hs4, hsD]
      rw [this]; exact hd.seen0 v
    · intro c hc hr
      rw [hw _ (hlt c hc _ (Or.inl rfl)), hw _ (hlt c hc _ (Or.inr rfl))]
      rw [hcl4] at hr ⊢
      rw [hatt4] at hc
      exact hd.wOne c hc hr
  have hval4 : ∀ l, s4.value l = none := by
    intro l
    have : s4.val = sB.val := by rw [hs4]
    unfold S.value; rw [this, hval]; split <;> rfl
  have ht4 : s4.trail = [] := by rw [hs4]; exact e5
  have hq4 : s4.qhead = 0 := by rw [hs4]; exact e7
  have hl4 : s4.trailLim = [] := by rw [hs4]; exact e6
  have hheap4 : ∀ v, v ∈ s4.heap ↔ v < s4.nVars := by
    intro v
    have h1 : s4.heap = sB.heap.filter (· < st.nVars) := by rw [hs4]
    have h2 : s4.nVars = st.nVars := by rw [hs4]
    rw [h1, h2, List.mem_filter, hheap]
    have := hk.nv
    simp only [decide_eq_true_eq]
    constructor
    · exact fun h => h.2
    · exact fun h => ⟨by omega, h⟩
  have hnv4 : s4.nVars = st.nVars := by rw [hs4]
  have hams4 : s4.ams = s.ams.take st.nAms := by rw [hs4]
  have ham4 : s4.am = s.am := by rw [hs4]; exact e16
  have hP4 : ∀ J : Nat → Prop, (∀ c ∈ s4.att, ∀ l ∈ (s4.cls c).lits, (∀ q ∈ (s4.cls c).lits, q ≠ l → J (neg q)) → J l) →
      (∀ c ∈ s4.ams, ∀ k, s4.am c = some k → ∀ T : List Nat, T.Nodup → (∀ y ∈ T, y ∈ k.lits ∧ J y) → k.card ≤ T.length → ∀ x ∈ k.lits, x ∉ T → J (neg x)) → PI Φ J s4 (fun _ _ => False) := by
    intro J hJ hJA
    refine ⟨hD4, ⟨?_, ?_, ?_, ?_, ?_, ?_, ?_, ?_, ?_⟩, ⟨?_, ?_, hJ, ?_⟩, ?_, ?_, ?_⟩
    · intro l; rw [hval4, ht4]; simp
    · rw [ht4]; simp
    · intro l rest hs; rw [ht4] at hs; simp at hs
    · intro l rest hs; rw [ht4] at hs; simp at hs
    · intro l rest hs; rw [ht4] at hs; simp at hs
    · rw [hl4]; exact List.Pairwise.nil
    · rw [hl4]; simp
    · intro v hv _; rw [hheap4]; exact hv
    · rw [hq4]; exact Nat.zero_le _
    · intro c hc; rw [hcls4]; exact hk.imp c (hkeep c hc)
    · rw [ht4]; simp
    · rw [ht4]; simp
    · intro l rest hs; rw [ht4] at hs; simp at hs
    · intro c _ w _ hpr
      unfold S.proc at hpr
      rw [ht4] at hpr; simp at hpr
    · have ha := hp2.a
      have hWl : ∀ l, l < 2 * st.nVars → s4.watches l = W2 l := by
        intro l hl; rw [hs4]; dsimp only; rw [if_pos hl]
      have hWl' : ∀ l, ¬ l < 2 * st.nVars → s4.watches l = [] := by
        intro l hl; rw [hs4]; dsimp only; rw [if_neg hl]
      have hne : s4.nextId = sB.nextId := by rw [hs4]
      have hsDa : sD.am = s.am := by rw [hsD]; exact e16
      have hsDs : sD.ams = s.ams.take st.nAms := by rw [hsD]
      have hsDn : sD.nextId = sB.nextId := by rw [hsD]
      refine ⟨?_, ?_, ?_, ?_, ?_, ?_, ?_, ?_, ?_, ?_, ?_, ?_, ?_, hJA, ?_, ?_⟩
      · rw [hams4, hne, ← hsDs, ← hsDn]; exact ha.idlt
      · rw [hne, ham4, ← hsDn, ← hsDa]; exact ha.new
      · rw [hams4, ← hsDs]; exact ha.nd
      · rw [hams4, ham4, ← hsDs, ← hsDa]; exact ha.isam
      · rw [hatt4, ham4, ← hsDa]; exact ha.att
      · intro l c b hm
        rw [ham4, ← hsDa]
        by_cases hl : l < 2 * st.nVars
        · have : s4.watchesBin l = B2 l := by rw [hs4]; dsimp only; rw [if_pos hl]
          rw [this] at hm
          exact ha.bin l c b hm
        · have : s4.watchesBin l = [] := by rw [hs4]; dsimp only; rw [if_neg hl]
          rw [this] at hm; cases hm
      · rw [hams4, ham4, ← hsDs, ← hsDa]; exact ha.nodup
      · rw [hams4, ham4, ← hsDs, ← hsDa]; exact ha.pos
      · rw [hams4, ham4, hnv4]; exact hk.arng
      · rw [hams4, ham4, ← hsDs, ← hsDa]; exact ha.two
      · intro l c b k hm hkk
        rw [hams4, ← hsDs]
        rw [ham4, ← hsDa] at hkk
        by_cases hl : l < 2 * st.nVars
        · rw [hWl l hl] at hm
          exact ha.wm l c b k hm hkk
        · rw [hWl' l hl] at hm; cases hm
      · intro c hc k hkk x hx
        rw [hams4] at hc
        rw [ham4] at hkk
        have hxr := hk.arng c hc k hkk x (List.mem_append_left _ hx)
        rw [hWl x (by omega)]
        rw [← hsDs] at hc
        rw [← hsDa] at hkk
        exact ha.wa c hc k hkk x hx
      · rw [hams4, ham4]; exact hk.aimp
      · intro c _ k _ x _ hpr
        unfold S.proc at hpr
        rw [ht4] at hpr; simp at hpr
      · rw [ht4]; simp
  have hdl4 : s4.dl = 0 := by unfold S.dl; rw [hl4]; rfl
  have hok4 : s4.ok = st.ok := by rw [hs4]
  have hid4 : s4.stateId = s.stateId := by rw [hs4]; exact e9
  have hva4 : s4.valid = s.valid.take (i + 1) := by rw [hs4]; exact e10
  have hcc4 : s4.clauses = s.clauses.take st.nClauses := by rw [hs4]
  have hll4 : s4.learnts = s.learnts.filter old := by rw [hs4]
  -- saved states up to this one
  have hkept : ∀ st' Φ', st'.nVars ≤ st.nVars → st'.nClauses ≤ st.nClauses → st'.nUnits ≤ st.nUnits → st'.nAms ≤ st.nAms → Kept s st' Φ' → Kept s4 st' Φ' := by
    intro st' Φ' n1 n2 n3 n4 hk'
    have hcl : s4.clauses.take st'.nClauses = s.clauses.take st'.nClauses := by rw [hcc4, List.take_take, Nat.min_eq_left n2]
    refine hk'.move (by rw [hid4]; exact hk'.idlt) (by rw [hnv4]; exact n1) hcl ?_ ?_ ?_ (by rw [hams4, List.take_take, Nat.min_eq_left n4])
      (by rw [hams4, List.length_take]; have := hk.na; omega) (fun c _ => by rw [ham4]; exact .refl _) ?_
    · rw [hcc4, List.length_take]; have := hk.nc; omega
    · rw [hun4, List.take_take, Nat.min_eq_left n3]
    · rw [hun4, List.length_take]; have := hk.nu; omega
    · rintro c (hc | ⟨hc, ho⟩)
      · rw [hcl] at hc
        exact ⟨Or.inl hc, by rw [hcls4]⟩
      · rw [hll4] at hc
        rw [hcls4] at ho
        exact ⟨Or.inr ⟨(List.mem_filter.1 hc).1, ho⟩, by rw [hcls4]⟩
  rw [hun4] at he
  cases hso : st.ok with
  | false =>
    have hre : reUnits fuel s4 (s.units.take st.nUnits) = some s4 := by
      cases hu : s.units.take st.nUnits with
      | nil => rfl
      | cons l ls => unfold reUnits; rw [if_pos (by rw [hok4, hso])]
    rw [hre] at he
    cases he
    refine ⟨rfl, ⟨hdl4, ⟨_, hP4 TT (fun _ _ _ _ _ => trivial) fun _ _ _ _ _ _ _ _ _ _ _ => trivial⟩, fun v hv => (hheap4 v).1 hv, fun e => ?_, fun _ => hk.dead hso⟩, hnv4, hid4, hva4,
      hkept st Φ (Nat.le_refl _) (Nat.le_refl _) (Nat.le_refl _) (Nat.le_refl _) hk, fun st' Φ' hb => hkept st' Φ' hb.nv hb.nc hb.nu hb.na, hams4⟩
    rw [hok4, hso] at e; cases e
  | true =>
    obtain ⟨v1, T, v2, v3, v4, v5⟩ := hk.live hso
    cases hre : reUnits fuel s4 (s.units.take st.nUnits) with
    | none => rw [hre] at he; cases he
    | some s5 =>
      rw [hre] at he
      injection he with he
      injection he with he' he
      subst he'
      obtain ⟨i1, i2, i3, i4, i5, i6, i7, _, i9⟩ := reUnits_spec v2 fuel (s.units.take st.nUnits) s4 s5
        (hP4 T (fun c hc => by rw [hcls4]; exact (v4 c (hkeep c hc)).1) fun c hc k hkk L hn hL hl => (v5 c (by rw [← hams4]; exact hc) k (by rw [← ham4]; exact hkk) L hn hL).2 hl) (by rw [hq4, ht4]; rfl) hdl4 (hok4.trans hso) (by rw [hnv4]; exact v3)
        (fun c hc => by rw [hcls4]; exact (v4 c (hkeep c hc)).2) (by rw [hams4, ham4]; exact v5) hre
      have hp5 : PI Φ TT s5 (fun _ _ => False) := ⟨i1.d, i1.t, ⟨i1.m.db, i1.m.imp0, fun _ _ _ _ _ => trivial, fun _ _ => trivial⟩, i1.q, i1.w,
        ⟨i1.a.idlt, i1.a.new, i1.a.nd, i1.a.isam, i1.a.att, i1.a.bin, i1.a.nodup, i1.a.pos, i1.a.range, i1.a.two, i1.a.wm, i1.a.wa, i1.a.sem, fun _ _ _ _ _ _ _ _ _ _ _ => trivial, i1.a.w, i1.a.full⟩⟩
      have hkept5 : ∀ st' Φ', st'.nVars ≤ st.nVars → st'.nClauses ≤ st.nClauses → st'.nUnits ≤ st.nUnits → st'.nAms ≤ st.nAms → Kept s st' Φ' → Kept s5 st' Φ' :=
        fun st' Φ' n1 n2 n3 n4 hk' => (hkept st' Φ' n1 n2 n3 n4 hk').ext i5.ext
      refine ⟨he.symm, ⟨i3, ⟨_, hp5⟩, ?_, fun _ => ⟨hp5, i2, ?_, fun u hu => ?_⟩, fun e => ?_⟩, i5.nVars.trans hnv4, i5.stateId.trans hid4, i5.valid.trans hva4,
        hkept5 st Φ (Nat.le_refl _) (Nat.le_refl _) (Nat.le_refl _) (Nat.le_refl _) hk, fun st' Φ' hb => hkept5 st' Φ' hb.nv hb.nc hb.nu hb.na, i5.ams.trans hams4⟩
      · intro v hv
        rw [i7] at hv
        rw [i5.nVars]; exact (hheap4 v).1 hv
      · rw [i6, hun4]; exact i9
      · obtain ⟨h1, h2, h3⟩ := i5.holds hu
        rw [hcc4, hcls4] at h1
        rw [hun4] at h2
        rw [hams4, ham4] at h3
        exact v1 u h1 h2 h3
      · rw [i4] at e; cases e

end Verif.Sat
