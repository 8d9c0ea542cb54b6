import Verif.MaxSat.WboSym

/-! # C30: WBO -/

namespace Verif.MaxAlg

open Verif.MaxSat (litVal clauseVal costC)

/-! ## relaxing a conflict -/

theorem costC_nil (u : Nat → Bool) : costC u [] = 0 := rfl

theorem fals_snoc (u : Nat → Bool) (c vs : List Nat) (w a b l : Nat) (i j : Bool) : fals u ⟨c, w, vs ++ [l], a, i⟩ = (fals u ⟨c, w, vs, b, j⟩ && !litVal u l) := by
  unfold fals
  have : clauseVal u (vs ++ [l]) = (clauseVal u vs || litVal u l) := by simp [clauseVal]
  dsimp only
  rw [this]
  cases clauseVal u c <;> cases clauseVal u vs <;> cases litVal u l <;> rfl

/-- the soft clause is relaxed -/
theorem Step1.inPlace {S : Prop} {mc n : Nat} {y : WSft} (hi : y.inc = false) (hw : y.w = mc) (hm : 0 < mc) : Step1 S mc n n (n + 1) y { y with vars := y.vars ++ [2 * n] } [] where
  np := Nat.le_refl n
  nn := Nat.lt_succ_self n
  cl := fun z hz => by rw [List.mem_singleton.1 hz]
  a := rfl
  ea := fun z hz => by cases hz
  ean := List.nodup_nil
  w := fun z hz => by rw [List.mem_singleton.1 hz]; dsimp only; omega
  vars := fun z hz l hl => by
    rw [List.mem_singleton.1 hz] at hl
    rcases List.mem_append.1 hl with hl | hl
    · exact .inl hl
    · exact .inr (List.mem_singleton.1 hl)
  rv := fun u => by
    obtain ⟨c, w, vs, a, i⟩ := y
    dsimp only at hi hw ⊢
    subst hi hw
    unfold remW MaxAlg.rv
    rw [fals_snoc u c vs w a a (2 * n) false false]
    cases fals u ⟨c, w, vs, a, false⟩ <;> cases litVal u (2 * n) <;> simp
  cost := fun u => by
    simp [hi]
  uniq := fun _ y1 h1 z1 h2 _ _ _ _ _ => by rw [List.mem_singleton.1 h1, List.mem_singleton.1 h2]
  act := fun _ _ _ => hi
  succ := fun _ => ⟨_, List.mem_singleton.2 rfl, hi, fun l hl => List.mem_append_left _ hl⟩

/-- the soft clause is split -/
theorem Step1.split {S : Prop} (hS : ¬ S) {mc n : Nat} {y : WSft} (hi : y.inc = false) (hw : mc < y.w) (hm : 0 < mc) :
    Step1 S mc n n (n + 2) y { y with w := y.w - mc } [⟨y.cl, mc, y.vars ++ [2 * n], 2 * (n + 1), false⟩] where
  np := Nat.le_refl n
  nn := by omega
  cl := fun z hz => by
    rcases List.mem_cons.1 hz with rfl | hz
    · rfl
    · rw [List.mem_singleton.1 hz]
  a := rfl
  ea := fun z hz => by rw [List.mem_singleton.1 hz]; dsimp only; omega
  ean := by simp
  w := fun z hz => by
    rcases List.mem_cons.1 hz with rfl | hz
    · dsimp only; omega
    · rw [List.mem_singleton.1 hz]; exact hm
  vars := fun z hz l hl => by
    rcases List.mem_cons.1 hz with rfl | hz
    · exact .inl hl
    · rw [List.mem_singleton.1 hz] at hl
      rcases List.mem_append.1 hl with hl | hl
      · exact .inl hl
      · exact .inr (List.mem_singleton.1 hl)
  rv := fun u => by
    obtain ⟨c, w, vs, a, i⟩ := y
    dsimp only at hi hw ⊢
    subst hi
    unfold remW
    rw [List.map_singleton, List.sum_singleton]
    unfold MaxAlg.rv
    rw [fals_snoc u c vs mc (2 * (n + 1)) a (2 * n) false false]
    have e1 : fals u ⟨c, mc, vs, a, false⟩ = fals u ⟨c, w, vs, a, false⟩ := rfl
    have e2 : fals u ⟨c, w - mc, vs, a, false⟩ = fals u ⟨c, w, vs, a, false⟩ := rfl
    rw [e1, e2]
    cases fals u ⟨c, w, vs, a, false⟩ <;> cases litVal u (2 * n) <;> simp <;> omega
  cost := fun u => by
    simp only [List.filter_cons, hi, Bool.not_false, if_pos, List.filter_nil, List.map_cons, List.map_nil]
    simp only [costC]
    split <;> omega
  uniq := fun h => absurd h hS
  act := fun _ _ _ => hi
  succ := fun _ => ⟨_, List.mem_cons_self, hi, fun l hl => hl⟩

/-- the search state while a conflict is relaxed -/
structure FS (U : Prop) (cfg : WCfg) (P : Prob) (mc n0 : Nat) (soft0 : List WSft) (K0 : Nat → Knd) (core : List Nat) (GL : List (List Nat)) (st : Wbo) (PL : List (WSft × Nat)) (K : Nat → Knd) (rest : List Nat) : Prop
    extends FInv P (cfg.sym = true) mc n0 soft0 K0 core st.n st.soft PL K rest where
  act : ∀ y ∈ st.soft, y.inc = false
  su : cfg.sym = true → U
  one : U → ∀ y ∈ st.soft, y.w = 1
  smi : cfg.sym = true → SMI st.nb st.sm st.ix st.soft (GL ++ [PL.map (·.2)]) rest
  ixe : cfg.sym = false → st.ix = []

theorem log_same (cfg : WCfg) (st : Wbo) (p r : Nat) : (st.log cfg p r).n = st.n ∧ (st.log cfg p r).soft = st.soft ∧ (st.log cfg p r).hard = st.hard ∧ (st.log cfg p r).nb = st.nb := by
  unfold Wbo.log
  split <;> exact ⟨rfl, rfl, rfl, rfl⟩

theorem log_ix {cfg : WCfg} (h : cfg.sym = false) (st : Wbo) (p r : Nat) : (st.log cfg p r).ix = st.ix := by
  unfold Wbo.log
  rw [h]; rfl

theorem relax1_spec {U : Prop} {cfg : WCfg} {P : Prob} {mc n0 q : Nat} {soft0 : List WSft} {K0 K : Nat → Knd} {core rest : List Nat} {GL : List (List Nat)} {st : Wbo} {PL : List (WSft × Nat)}
    (h : FS U cfg P mc n0 soft0 K0 core GL st PL K (q :: rest)) (hq : q ∉ rest) (hm : 0 < mc) (hex : ∃ y ∈ soft0, y.a = q ∧ mc ≤ y.w) :
    ∃ st' PL' K', Wbo.relax1 cfg mc (st, PL.map (·.2)) q = some (st', PL'.map (·.2)) ∧ FS U cfg P mc n0 soft0 K0 core GL st' PL' K' rest ∧ st'.hard = st.hard := by
  obtain ⟨y, hy0, hyq, hyw⟩ := hex
  have hys : y ∈ st.soft := h.left y hy0 (by rw [hyq]; exact List.mem_cons_self)
  have hget := coreIdxW_of h.anodup hys
  have hyi := h.act y hys
  rw [hyq] at hget
  obtain ⟨i, hi⟩ : ∃ i, coreIdxW st.soft q = i := ⟨_, rfl⟩
  rw [hi] at hget
  have hil := (List.getElem?_eq_some_iff.1 hget).1
  unfold Wbo.relax1
  dsimp only
  rw [hi, hget]
  dsimp only
  split
  · rename_i hwm
    refine ⟨_, PL ++ [(y, 2 * st.n)], stepK K st.n st.n, (by rw [List.map_append]; exact rfl), ?_, ?_⟩
    rotate_left
    · exact (log_same cfg _ _ _).2.2.1
    have hf := h.toFInv.step hq hget hy0 hyq (Step1.inPlace (S := cfg.sym = true) (n := st.n) hyi hwm hm)
    rw [List.append_nil] at hf
    obtain ⟨l1, l2, l3, l4⟩ := log_same cfg { st with n := st.n + 1, soft := st.soft.set i { y with vars := y.vars ++ [2 * st.n] } } i (2 * st.n)
    have hmem : ∀ z ∈ st.soft.set i { y with vars := y.vars ++ [2 * st.n] }, z.inc = false ∧ (U → z.w = 1) := by
      intro z hz
      rcases List.mem_or_eq_of_mem_set hz with hz | rfl
      · exact ⟨h.act z hz, fun hs => h.one hs z hz⟩
      · exact ⟨hyi, fun hs => h.one hs y hys⟩
    refine { toFInv := by rw [l1, l2]; exact hf, act := fun z hz => ?_, su := h.su, one := fun hs z hz => ?_, smi := fun hs => ?_, ixe := fun hs => (log_ix hs _ _ _).trans (h.ixe hs) }
    · rw [l2] at hz; exact (hmem z hz).1
    · rw [l2] at hz; exact (hmem z hz).2 hs
    · have hsm := h.smi hs
      have hneq : ∀ p z, st.soft[p]? = some z → z.a = q → p = i := by
        intro p z hp hz
        have := eq_of_a h.anodup (List.mem_of_getElem? hp) hys (hz.trans hyq.symm)
        subst this
        have h2 := List.getElem?_eq_some_iff.1 hp
        have h3 := List.getElem?_eq_some_iff.1 hget
        obtain ⟨p1, p2⟩ := h2
        obtain ⟨i1, i2⟩ := h3
        exact (List.Nodup.getElem_inj_iff h.anodup (hi := by simpa using p1) (hj := by simpa using i1)).1 (by rw [List.getElem_map, List.getElem_map, p2, i2])
      have hg : SMI st.nb st.sm st.ix (st.soft.set i { y with vars := y.vars ++ [2 * st.n] }) (GL ++ [PL.map (·.2) ++ [2 * st.n]]) rest := by
        refine hsm.grow (fun l hl => List.mem_append_left _ hl) (fun p z hp hz => ?_) fun p z hp hz e he => ?_
        · by_cases e : p = i
          · subst e
            rw [hget] at hp
            rw [← Option.some.inj hp]
            exact ⟨_, List.getElem?_set_self hil, hyi, fun l hl => List.mem_append_left _ hl⟩
          · exact ⟨z, by rw [List.getElem?_set_ne (Ne.symm e)]; exact hp, hz, fun l hl => hl⟩
        · by_cases e1 : p = i
          · subst e1
            rw [List.getElem?_set_self hil] at hp
            rw [← Option.some.inj hp] at hz
            exact absurd (hyq ▸ hz) hq
          · rw [List.getElem?_set_ne (Ne.symm e1)] at hp
            exact hsm.fresh p z hp (List.mem_cons_of_mem _ hz) e he
      rw [List.map_append]
      unfold Wbo.log
      dsimp only
      have hpad : (st.sm ++ List.replicate (i + 1 - st.sm.length) ([] : List (Nat × Nat))).getD i [] = smRow st.sm i := smRow_pad _ _ _
      rw [hpad]
      split
      · refine hg.log (fun l hl hne => ?_) (List.mem_append_right _ (List.mem_singleton.2 rfl)) (fun p e he => ?_) ⟨_, List.getElem?_set_self hil, hyi, List.mem_append_right _ (List.mem_singleton.2 rfl), by dsimp only; rw [hyq]; exact hq⟩ fun e he => ?_
        · rcases List.mem_append.1 hl with hl | hl
          · obtain ⟨x, hx, rfl⟩ := List.mem_map.1 hl
            have := h.lits x hx
            omega
          · exact absurd (List.mem_singleton.1 hl) hne
        · obtain ⟨_, _, z, hz, _, hv⟩ := hsm.row p e he
          have := (h.vars z (List.mem_of_getElem? hz) _ hv).2.1
          omega
        · exact hsm.fresh i y hget (by rw [hyq]; exact List.mem_cons_self) e he
      · exact hg
  · rename_i hwm
    have hnu : ¬ U := fun hs => hwm (by have := h.one hs y hys; omega)
    have hns : ¬ cfg.sym = true := fun hs => hnu (h.su hs)
    refine ⟨_, PL ++ [(y, 2 * st.n)], stepK K st.n st.n, (by rw [List.map_append]; exact rfl), ?_, ?_⟩
    rotate_left
    · exact (log_same cfg _ _ _).2.2.1
    have hf := h.toFInv.step hq hget hy0 hyq (Step1.split (S := cfg.sym = true) hns (n := st.n) hyi (by omega) hm)
    obtain ⟨l1, l2, l3, l4⟩ := log_same cfg { st with n := st.n + 2, soft := st.soft.set i { y with w := y.w - mc } ++ [⟨y.cl, mc, y.vars ++ [2 * st.n], 2 * (st.n + 1), false⟩] } st.soft.length (2 * st.n)
    refine { toFInv := by rw [l1, l2]; exact hf, act := fun z hz => ?_, su := h.su, one := fun hs => absurd hs hnu, smi := fun hs => absurd hs hns, ixe := fun hs => (log_ix hs _ _ _).trans (h.ixe hs) }
    rw [l2] at hz
    rcases List.mem_append.1 hz with hz | hz
    · rcases List.mem_or_eq_of_mem_set hz with hz | rfl
      · exact h.act z hz
      · exact hyi
    · rw [List.mem_singleton.1 hz]

theorem relaxAll_spec {U : Prop} {cfg : WCfg} {P : Prob} {mc n0 : Nat} {soft0 : List WSft} {K0 : Nat → Knd} {core : List Nat} {GL : List (List Nat)} (hm : 0 < mc) :
    ∀ {rest : List Nat} {st : Wbo} {PL : List (WSft × Nat)} {K : Nat → Knd}, FS U cfg P mc n0 soft0 K0 core GL st PL K rest → rest.Nodup → (∀ q ∈ rest, ∃ y ∈ soft0, y.a = q ∧ mc ≤ y.w) →
    ∃ st' PL' K', rest.foldlM (Wbo.relax1 cfg mc) (st, PL.map (·.2)) = some (st', PL'.map (·.2)) ∧ FS U cfg P mc n0 soft0 K0 core GL st' PL' K' [] ∧ st'.hard = st.hard
  | [], st, PL, K, h, _, _ => ⟨st, PL, K, rfl, h, rfl⟩
  | q :: rest, st, PL, K, h, hn, hex => by
    rw [List.nodup_cons] at hn
    obtain ⟨s1, PL1, K1, e1, f1, d1⟩ := relax1_spec h hn.1 hm (hex q List.mem_cons_self)
    obtain ⟨s2, PL2, K2, e2, f2, d2⟩ := relaxAll_spec hm f1 hn.2 fun q hq => hex q (List.mem_cons_of_mem _ hq)
    exact ⟨s2, PL2, K2, by rw [List.foldlM_cons, e1]; exact e2, f2, d2.trans d1⟩

/-! ## the search state -/

/-- the search state with the clauses `hs` on the solver -/
structure WI (U : Prop) (P : Prob) (cfg : WCfg) (st : Wbo) (hs : List (List Nat)) (lb : Nat) (G : List Cor) (K : Nat → Knd) : Prop where
  all : WInv P (cfg.sym = true) st.n st.hard st.soft G K lb
  onS : WInv P (cfg.sym = true) st.n hs st.soft G K lb
  sub : ∀ c ∈ hs, c ∈ st.hard
  act : ∀ y ∈ st.soft, y.inc = false
  su : cfg.sym = true → U
  one : U → ∀ y ∈ st.soft, y.w = 1
  ix : st.ix = []
  smi : cfg.sym = true → SMI st.nb st.sm [] st.soft (G.map (·.lits)) []

/-- `rebuildSolver` with `symmetryBreaking` -/
theorem symBreak_spec {U : Prop} {P : Prob} {cfg : WCfg} {st : Wbo} {lb : Nat} {G : List Cor} {K : Nat → Knd} (h : WInv P (cfg.sym = true) st.n st.hard st.soft G K lb) (ha : ∀ y ∈ st.soft, y.inc = false)
    (hU : cfg.sym = true → U) (h1 : U → ∀ y ∈ st.soft, y.w = 1) (hs : cfg.sym = true → SMI st.nb st.sm st.ix st.soft (G.map (·.lits)) []) (hx : cfg.sym = false → st.ix = []) :
    WI U P cfg (st.symBreak cfg) st.hard lb G K ∧ (st.symBreak cfg).n = st.n ∧ (st.symBreak cfg).soft = st.soft := by
  unfold Wbo.symBreak
  split
  · rename_i hsym
    have clr : ∀ {sm : List (List (Nat × Nat))} {nb : Nat} {ix : List Nat}, SMI nb sm ix st.soft (G.map (·.lits)) [] → SMI nb sm [] st.soft (G.map (·.lits)) [] := fun h =>
      { h with ixl := (fun p hp => by cases hp), ixs := List.Pairwise.nil }
    split
    · obtain ⟨k1, k2, k3, k4, k5, k6⟩ := WInv.addSyms hsym (cfg := cfg) h fun xy hxy => (hs hsym).cands h.sorted hxy
      obtain ⟨st', hst⟩ : ∃ st', (symCands st.sm st.ix).foldl (Wbo.addSym cfg) st = st' := ⟨_, rfl⟩
      rw [hst] at k1 k2 k3 k4 k5 k6 ⊢
      refine ⟨⟨?_, ?_, k2, ?_, hU, ?_, rfl, fun e => ?_⟩, k3, k4⟩
      · dsimp only; rw [k3, k4]; exact k1
      · dsimp only; rw [k3, k4]; exact h
      · dsimp only; rw [k4]; exact ha
      · dsimp only; rw [k4]; exact h1
      · dsimp only; rw [k4, k5, k6]; exact clr (hs e)
    · exact ⟨⟨h, h, fun c hc => hc, ha, hU, h1, rfl, fun e => clr (hs e)⟩, rfl, rfl⟩
  · rename_i hsym
    exact ⟨⟨h, h, fun c hc => hc, ha, hU, h1, hx (by simpa using hsym), fun e => absurd e hsym⟩, rfl, rfl⟩

/-- a relaxed conflict -/
theorem relaxCore_spec {U : Prop} {P : Prob} (hw : P.WF) {cfg : WCfg} {st : Wbo} {hs : List (List Nat)} {lb mc : Nat} {G : List Cor} {K : Nat → Knd} (h : WI U P cfg st hs lb G K) {core : List Nat} (hn : core.Nodup)
    (hm : 0 < mc) (hex : ∀ q ∈ core, ∃ y ∈ st.soft, y.a = q ∧ mc ≤ y.w) (hP : ∃ v, P.Holds v)
    (hc : ∀ u : Nat → Bool, (∀ c ∈ st.hard, clauseVal u c = true) → (∀ y ∈ st.soft, litVal u y.a = (y.inc || fals u y)) → ∃ l ∈ core, litVal u l = true) :
    ∃ st' G' K', Wbo.relaxCore cfg mc { st with nb := st.nb + 1 } core = some st' ∧ WI U P cfg (st'.symBreak cfg) st'.hard (lb + mc) G' K' ∧ (st'.symBreak cfg).n = st'.n ∧ (st'.symBreak cfg).soft = st'.soft := by
  have hsy : cfg.sym = false ∨ cfg.sym = true := by cases cfg.sym <;> simp
  have hcore : ∀ u : Nat → Bool, (∀ c ∈ st.hard, clauseVal u c = true) → (∀ y ∈ st.soft, litVal u y.a = (y.inc || fals u y)) → ∃ y ∈ st.soft, y.a ∈ core ∧ fals u y = true := by
    intro u h1 h2
    obtain ⟨l, hl, ht⟩ := hc u h1 h2
    obtain ⟨y, hy, e, _⟩ := hex l hl
    subst e
    refine ⟨y, hy, hl, ?_⟩
    rw [h2 y hy, h.act y hy] at ht
    simpa using ht
  have hF : FS U cfg P mc st.n st.soft K core (G.map (·.lits)) { st with nb := st.nb + 1 } [] K core := by
    refine { toSOk := h.all.toSOk, nn := Nat.le_refl _, kext := fun _ _ => rfl, lits := (fun q hq => by cases hq), srt := List.Pairwise.nil, src := (fun q hq => by cases hq), rem := (fun u => by simp [saved]), left := fun y hy _ => hy, done := fun y _ hy => .inl hy, uniq := h.all.uniq, succ := fun y hy hi => ⟨y, hy, hi, fun l hl => hl⟩, act := h.act, su := h.su, one := h.one, smi := fun e => ?_, ixe := fun _ => h.ix }
    have := (h.smi e).next (ix := []) core
    dsimp only
    rw [h.ix]; exact this
  obtain ⟨s1, PL, K1, e1, f1, d1⟩ := relaxAll_spec hm hF hn hex
  have hne : PL.map (·.2) ≠ [] := by
    intro e0
    obtain ⟨v, hv⟩ := hP
    obtain ⟨u, _, u2, u3, _⟩ := h.all.model hw hv
    obtain ⟨y, hy, hyc, _⟩ := hcore u u2 u3
    rcases f1.done y hy hyc with hd | ⟨p, hp⟩
    · cases hd
    · rw [List.map_eq_nil_iff] at e0
      rw [e0] at hp; cases hp
  obtain ⟨e, he, _⟩ := encodeEO_some hne s1.n
  have hW := WInv.close hw h.all f1.toFInv he hcore
  dsimp only at d1
  obtain ⟨st', hst⟩ : ∃ st' : Wbo, { s1 with n := s1.n + e.2, hard := e.1 ++ s1.hard } = st' := ⟨_, rfl⟩
  refine ⟨st', _, _, ?_, symBreak_spec (G := G ++ [⟨PL.map (·.2), s1.n⟩]) (K := auxK K1 s1.n (PL.map (·.2))) ?_ ?_ h.su ?_ ?_ ?_⟩
  · unfold Wbo.relaxCore
    have e1' : core.foldlM (Wbo.relax1 cfg mc) ({ st with nb := st.nb + 1 }, []) = some (s1, PL.map (·.2)) := e1
    rw [e1', Option.bind_some, he, Option.map_some, hst]
  · rw [← hst]; dsimp only; rw [d1]; exact hW
  · rw [← hst]; exact f1.act
  · rw [← hst]; exact f1.one
  · rw [← hst]
    intro e
    rw [List.map_append]
    exact f1.smi e
  · rw [← hst]; exact f1.ixe

/-! ## the initial state -/

theorem zip_cost {α : Type} (g : (List Nat × Nat) × Nat → α) (f : α → List Nat × Nat) (hg : ∀ x, f (g x) = x.1) (S : List (List Nat × Nat)) (k : Nat) : ((S.zipIdx k).map g).map f = S := by
  rw [List.map_map, show (f ∘ g) = Prod.fst from funext hg]
  exact List.zipIdx_map_fst k S

theorem remW_zip (u : Nat → Bool) (n : Nat) : ∀ (S : List (List Nat × Nat)) (k : Nat),
    remW u ((S.zipIdx k).map fun ci => ⟨ci.1.1, ci.1.2, [], 2 * (n + ci.2), false⟩) = costC u S
  | [], _ => rfl
  | (c, w) :: S, k => by
    rw [List.zipIdx_cons, List.map_cons, remW_cons, remW_zip u n S (k + 1)]
    simp only [costC]
    congr 1
    unfold rv fals
    dsimp only
    have : clauseVal u [] = false := rfl
    rw [this]
    cases clauseVal u c <;> simp

theorem wboInit_WInv {P : Prob} (hw : P.WF) (hp : P.Pos) (S : Prop) : WInv P S P.wboInit.n P.wboInit.hard P.wboInit.soft [] (fun x => if x < P.n then .base else .asm) 0 := by
  have hmem : ∀ y ∈ P.wboInit.soft, ∃ c i, P.soft[i]? = some c ∧ y = ⟨c.1, c.2, [], 2 * (P.n + i), false⟩ := by
    intro y hy
    obtain ⟨ci, hci, rfl⟩ := List.mem_map.1 hy
    exact ⟨ci.1, ci.2, List.mem_zipIdx_iff_getElem?.1 hci, rfl⟩
  have hcost : ∀ u, costC u ((P.wboInit.soft.filter fun y => !y.inc).map fun y => (y.cl, y.w)) = costC u P.soft := by
    intro u
    rw [List.filter_eq_self.2 fun y hy => by obtain ⟨c, i, _, rfl⟩ := hmem y hy; rfl]
    congr 1
    exact zip_cost (fun ci => (⟨ci.1.1, ci.1.2, [], 2 * (P.n + ci.2), false⟩ : WSft)) (fun y => (y.cl, y.w)) (fun _ => rfl) _ _
  refine { cl := fun y hy l hl => ?_, vars := fun y hy l hl => ?_, a := fun y hy => ?_, pos := fun y hy => ?_, anodup := ?_, cost := hcost, pn := Nat.le_add_right _ _, low := fun x hx => if_pos hx, lits := (fun g hg => by cases hg), nodup := (fun g hg => by cases hg), aux := (fun g hg => by cases hg), sub := fun c hc => hc, eos := (fun g hg => by cases hg), cls := fun c hc => .inl hc, sorted := List.Pairwise.nil, uniq := fun _ y hy z hz _ _ l hl => ?_, sound := fun u _ => ?_, complete := fun v hv => ⟨v, fun _ _ => rfl, (fun g hg => by cases hg), ?_⟩ }
  · obtain ⟨c, i, hi, rfl⟩ := hmem y hy
    exact hw.soft c (List.mem_of_getElem? hi) l hl
  · obtain ⟨c, i, hi, rfl⟩ := hmem y hy
    cases hl
  · obtain ⟨c, i, hi, rfl⟩ := hmem y hy
    have := (List.getElem?_eq_some_iff.1 hi).1
    dsimp only [Prob.wboInit]
    refine ⟨by omega, by omega, if_neg (by omega)⟩
  · obtain ⟨c, i, hi, rfl⟩ := hmem y hy
    exact hp c (List.mem_of_getElem? hi)
  · have : P.wboInit.soft.map (·.a) = (List.range' 0 P.soft.length).map fun i => 2 * (P.n + i) := by
      dsimp only [Prob.wboInit]
      rw [List.map_map, ← List.zipIdx_map_snd 0 P.soft, List.map_map]
      rfl
    rw [this]
    exact List.Pairwise.map _ (fun a b hab => by intro e; exact hab (by omega)) List.nodup_range'
  · obtain ⟨c, i, hi, rfl⟩ := hmem y hy
    cases hl
  · rw [show remW u P.wboInit.soft = costC u P.soft from remW_zip u P.n P.soft 0]; omega
  · rw [show remW v P.wboInit.soft = costC v P.soft from remW_zip v P.n P.soft 0]; omega

theorem wboInit_WI {U : Prop} {P : Prob} (hw : P.WF) (hp : P.Pos) {cfg : WCfg} (hU : cfg.sym = true → U) (h1 : U → P.Unit) :
    ∃ K, WI U P cfg (P.wboInit.symBreak cfg) P.wboInit.hard 0 [] K ∧ (P.wboInit.symBreak cfg).n = P.wboInit.n ∧ (P.wboInit.symBreak cfg).soft = P.wboInit.soft := by
  refine ⟨_, symBreak_spec (wboInit_WInv hw hp _) (fun y hy => ?_) hU (fun hs y hy => ?_) (fun _ => ?_) fun _ => rfl⟩
  · obtain ⟨ci, _, rfl⟩ := List.mem_map.1 hy; rfl
  · obtain ⟨ci, hci, rfl⟩ := List.mem_map.1 hy
    exact h1 hs _ (List.fst_mem_of_mem_zipIdx hci)
  · have hr : ∀ p, smRow P.wboInit.sm p = [] := by
      intro p
      unfold smRow
      dsimp only [Prob.wboInit]
      rw [List.getD_eq_getElem?_getD, List.getElem?_map]
      cases P.soft[p]? <;> rfl
    exact { num := rfl, row := (fun p e he => by rw [hr] at he; cases he), srt := (fun p => by rw [hr]; exact List.Pairwise.nil), fresh := (fun p y _ hy => by cases hy), ixl := (fun p hp => by cases hp), ixs := List.Pairwise.nil }

/-! ## the least weight of a conflict -/

theorem coreCost_spec {soft : List WSft} (hn : (soft.map (·.a)).Nodup) (hp : ∀ y ∈ soft, 0 < y.w) {unw : Bool} (hu : unw = true → ∀ y ∈ soft, y.w = 1) {core : List Nat} (hc : ∀ q ∈ core, ∃ y ∈ soft, y.a = q) :
    0 < coreCost unw soft core ∧ ∀ q ∈ core, ∃ y ∈ soft, y.a = q ∧ coreCost unw soft core ≤ y.w := by
  unfold coreCost
  cases unw with
  | true =>
    rw [if_pos rfl]
    refine ⟨Nat.one_pos, fun q hq => ?_⟩
    obtain ⟨y, hy, e⟩ := hc q hq
    exact ⟨y, hy, e, hp y hy⟩
  | false =>
    rw [if_neg Bool.false_ne_true]
    have hget : ∀ q ∈ core, ∃ y ∈ soft, y.a = q ∧ soft[coreIdxW soft q]? = some y := fun q hq => by
      obtain ⟨y, hy, e⟩ := hc q hq
      refine ⟨y, hy, e, ?_⟩
      rw [← e]; exact coreIdxW_of hn hy
    constructor
    · refine foldl_pos _ (fun q hq m hm => ?_) (by decide)
      obtain ⟨y, hy, e, hg⟩ := hget q hq
      rw [hg]
      have := hp y hy
      dsimp only
      split <;> omega
    · intro q hq
      obtain ⟨y, hy, e, hg⟩ := hget q hq
      refine ⟨y, hy, e, foldl_bound (fun m p => ?_) (fun m => ?_) _ hq⟩
      · cases soft[coreIdxW soft p]? with
        | none => exact Nat.le_refl _
        | some x => exact (ite_lt_le _ _).1
      · rw [hg]; exact (ite_lt_le _ _).2

/-! ## the next weight -/

theorem nextWt_spec (ws : List Nat) (w : Nat) (h : 1 ≤ w) : 1 ≤ nextWt ws w ∧ nextWt ws w ≤ w ∧ (1 < w → nextWt ws w < w) := by
  unfold nextWt
  have : ∀ (L : List Nat) (n : Nat), 1 ≤ n → n ≤ w → (1 < w → n < w) →
      1 ≤ L.foldl (fun nw x => if nw < x ∧ x < w then x else nw) n ∧ L.foldl (fun nw x => if nw < x ∧ x < w then x else nw) n ≤ w ∧
        (1 < w → L.foldl (fun nw x => if nw < x ∧ x < w then x else nw) n < w) := by
    intro L
    induction L with
    | nil => intro n h1 h2 h3; exact ⟨h1, h2, h3⟩
    | cons a L ih =>
      intro n h1 h2 h3
      rw [List.foldl_cons]
      split
      · exact ih a (by omega) (by omega) (by omega)
      · exact ih n h1 h2 h3
  exact this _ 1 (Nat.le_refl _) h (fun h => h)

theorem enoughWt_one {ws : List Nat} (h : ∀ x ∈ ws, 1 ≤ x) : enoughWt ws 1 = true := by
  unfold enoughWt
  dsimp only
  rw [filter_all_length h]
  simp

theorem diversityWt_spec {ws : List Nat} (h : ∀ x ∈ ws, 1 ≤ x) (multi : Bool) : ∀ (f : Nat) (next : Bool) (w : Nat), 1 ≤ w → w + (if multi || next then 0 else 1) < f →
    ∃ w', diversityWt ws multi f next w = some w' ∧ 1 ≤ w' ∧ w' ≤ w ∧ (multi = true → 1 < w → w' < w)
  | 0, _, _, _, hf => absurd hf (Nat.not_lt_zero _)
  | f + 1, next, w, h1, hf => by
    unfold diversityWt
    dsimp only
    obtain ⟨s1, s2, s3⟩ := nextWt_spec ws w h1
    cases hm : (multi || next) with
    | true =>
      rw [hm] at hf
      rw [if_pos rfl] at hf ⊢
      split
      · exact ⟨_, rfl, s1, s2, fun _ h => s3 h⟩
      · rename_i hen
        have hlt : nextWt ws w < w := by
          refine s3 (Classical.byContradiction fun hn => hen ?_)
          have : nextWt ws w = 1 := by omega
          rw [this]; exact enoughWt_one h
        obtain ⟨w', e1, e2, e3, e4⟩ := diversityWt_spec h multi f (next || !multi) (nextWt ws w) s1 (by
          rw [if_pos (by cases multi <;> simp)]; omega)
        exact ⟨w', e1, e2, by omega, fun _ _ => by omega⟩
    | false =>
      have hmf : multi = false := by
        cases multi
        · rfl
        · cases hm
      rw [hm] at hf
      rw [if_neg Bool.false_ne_true] at hf
      rw [if_neg Bool.false_ne_true]
      split
      · refine ⟨_, rfl, h1, Nat.le_refl _, fun e => ?_⟩
        rw [hmf] at e; cases e
      · obtain ⟨w', e1, e2, e3, e4⟩ := diversityWt_spec h multi f (next || !multi) w h1 (by
          rw [if_pos (by rw [hmf]; simp)]; omega)
        exact ⟨w', e1, e2, e3, e4⟩

theorem updateWt_spec {ws : List Nat} (h : ∀ x ∈ ws, 1 ≤ x) (strat : WStrat) (multi : Bool) {w : Nat} (h1 : 1 ≤ w) :
    ∃ w', updateWt strat ws multi w = some w' ∧ 1 ≤ w' ∧ w' ≤ w ∧ (multi = true → 1 < w → strat ≠ .none → w' < w) := by
  unfold updateWt
  cases strat with
  | none => exact ⟨w, rfl, h1, Nat.le_refl _, fun _ _ e => absurd rfl e⟩
  | normal =>
    obtain ⟨s1, s2, s3⟩ := nextWt_spec ws w h1
    exact ⟨_, rfl, s1, s2, fun _ h _ => s3 h⟩
  | diversify =>
    obtain ⟨w', e1, e2, e3, e4⟩ := diversityWt_spec h multi (w + 2) false w h1 (by split <;> omega)
    exact ⟨w', e1, e2, e3, fun hm h _ => e4 hm h⟩

/-! ## the searches -/

/-- the solver for the weight `w` -/
def Wbo.solOn (st : Wbo) (hs : List (List Nat)) (w : Nat) : Sol := ⟨st.n, hs ++ (st.soft.filter fun y => decide (w ≤ y.w)).map WSft.clause⟩

theorem WI.holds {U : Prop} {P : Prob} {cfg : WCfg} {st : Wbo} {hs : List (List Nat)} {lb w : Nat} {G : List Cor} {K : Nat → Knd} (h : WI U P cfg st hs lb G K) {m : Nat → Bool} (hm : (st.solOn hs w).Holds m) :
    P.Holds m ∧ st.cost m = costC m P.soft := by
  refine ⟨fun c hc => hm c (List.mem_append_left _ (h.onS.sub c hc)), ?_⟩
  have := h.all.cost m
  rw [List.filter_eq_self.2 fun y hy => by rw [h.act y hy]; rfl] at this
  exact this

/-- a model under all assumptions -/
theorem WI.best {U : Prop} {P : Prob} {cfg : WCfg} {st : Wbo} {hs : List (List Nat)} {lb w : Nat} {G : List Cor} {K : Nat → Knd} (h : WI U P cfg st hs lb G K) {m : Nat → Bool} (hm : (st.solOn hs w).Holds m)
    (ht : ∀ a ∈ st.asm, litVal m a = true) (hall : ∀ y ∈ st.soft, w ≤ y.w) : costC m P.soft ≤ lb := by
  refine h.onS.allTrue (fun c hc => hm c (List.mem_append_left _ hc)) fun y hy _ => ⟨hm _ (List.mem_append_right _ (List.mem_map.2 ⟨y, List.mem_filter.2 ⟨hy, decide_eq_true (hall y hy)⟩, rfl⟩)), ?_⟩
  have := ht _ (List.mem_map.2 ⟨y, hy, rfl⟩)
  rw [litVal_neg] at this
  simpa using this

/-- a conflict -/
theorem WI.conflict {U : Prop} {P : Prob} (hw : P.WF) {cfg : WCfg} {st : Wbo} {hs : List (List Nat)} {lb w : Nat} {G : List Cor} {K : Nat → Knd} (h : WI U P cfg st hs lb G K) {O : Orc} (hO : O.Ok) {k : Nat}
    {core : List Nat} (he : O k (st.solOn hs w) st.asm = .unsat core) {unw : Bool} (hu : unw = true → ∀ y ∈ st.soft, y.w = 1) (hP : ∃ v, P.Holds v) :
    0 < coreCost unw st.soft core ∧ ∃ st' G' K', Wbo.relaxCore cfg (coreCost unw st.soft core) { st with nb := st.nb + 1 } core = some st' ∧
      WI U P cfg (st'.symBreak cfg) st'.hard (lb + coreCost unw st.soft core) G' K' ∧ (st'.symBreak cfg).n = st'.n ∧ (st'.symBreak cfg).soft = st'.soft := by
  have ho := hO k (st.solOn hs w) st.asm
  rw [he] at ho
  obtain ⟨o1, o2, o3⟩ := ho
  have hex : ∀ q ∈ core, ∃ y ∈ st.soft, y.a = q := fun q hq => by
    obtain ⟨y, hy, e⟩ := List.mem_map.1 (o1 q hq)
    exact ⟨y, hy, by rw [← neg_neg q, ← e, neg_neg]⟩
  obtain ⟨c1, c2⟩ := coreCost_spec h.all.anodup h.all.pos hu hex
  refine ⟨c1, relaxCore_spec hw h o2 c1 c2 hP fun u h1 h2 => o3 u fun c hc => ?_⟩
  rcases List.mem_append.1 hc with hc | hc
  · exact h1 c (h.sub c hc)
  · obtain ⟨y, hy, rfl⟩ := List.mem_map.1 hc
    exact clause_true (h2 y (List.mem_filter.1 hy).1)

/-- `normalSearch` -/
theorem wboN_right {P : Prob} (hw : P.WF) {cfg : WCfg} {unw : Bool} {U : Prop} (hu : unw = true → U) {O : Orc} (hO : O.Ok) (H : Nat → Bool) : ∀ (f k : Nat) (st : Wbo) (hs : List (List Nat)) (lb ub : Nat)
    (u : Nat → Bool) (G : List Cor) (K : Nat → Knd), WI U P cfg st hs lb G K → P.Holds u → costC u P.soft = ub → (ub - lb) + 1 ≤ f →
    ∃ r, wboN cfg unw O H f k st (st.solOn hs 0) lb ub u = some r ∧ Right P O H r
  | 0, _, _, _, _, _, _, _, _, _, _, _, hf => by omega
  | f + 1, k, st, hs, lb, ub, u, G, K, h, hu1, hu2, hf => by
    unfold wboN
    have ho := hO k (st.solOn hs 0) st.asm
    cases he : O k (st.solOn hs 0) st.asm with
    | cancel => exact ⟨_, rfl, .inl ⟨_, _, _, he⟩⟩
    | sat m =>
      rw [he] at ho
      obtain ⟨m1, m2⟩ := h.holds ho.1
      have hb := h.best ho.1 ho.2 fun _ _ => Nat.zero_le _
      refine ⟨_, rfl, m1, m2.symm, fun v hv => ?_⟩
      have := h.all.lower hv
      omega
    | unsat core =>
      dsimp only
      obtain ⟨c1, st', G', K', r1, r2, r3, r4⟩ := h.conflict hw hO he (unw := unw) (fun e => h.one (hu e)) ⟨u, hu1⟩
      have hlow := r2.all.lower hu1
      split
      · refine ⟨_, rfl, hu1, hu2, fun v hv => ?_⟩
        have := r2.all.lower hv
        omega
      · split
        · rename_i hH
          exact ⟨_, rfl, .inr ⟨k, hH⟩⟩
        · rw [r1, Option.bind_some, show st'.sol 0 = (st'.symBreak cfg).solOn st'.hard 0 by unfold Wbo.sol Wbo.solOn; rw [r3, r4]]
          exact wboN_right hw hu hO H f (k + 1) _ _ _ ub u G' K' r2 hu1 hu2 (by omega)

theorem filter_length_eq {α : Type} {p : α → Bool} {l : List α} (h : (l.filter p).length = l.length) : ∀ x ∈ l, p x = true :=
  fun x hx => (List.length_filter_eq_length_iff.1 h) x hx

/-- `weightSearch` -/
theorem wboW_right {P : Prob} (hw : P.WF) {cfg : WCfg} (hst : cfg.strat ≠ .none) {U : Prop} {O : Orc} (hO : O.Ok) (H : Nat → Bool) : ∀ (f k : Nat) (st : Wbo) (hs : List (List Nat)) (w lb ub : Nat)
    (u : Nat → Bool) (G : List Cor) (K : Nat → Knd), WI U P cfg st hs lb G K → P.Holds u → costC u P.soft = ub → 1 ≤ w → (ub - lb) + w + 1 ≤ f →
    ∃ r, wboW cfg O H f k st (st.solOn hs w) w lb ub u = some r ∧ Right P O H r
  | 0, _, _, _, _, _, _, _, _, _, _, _, _, _, hf => by omega
  | f + 1, k, st, hs, w, lb, ub, u, G, K, h, hu1, hu2, hw1, hf => by
    unfold wboW
    have ho := hO k (st.solOn hs w) st.asm
    cases he : O k (st.solOn hs w) st.asm with
    | cancel => exact ⟨_, rfl, .inl ⟨_, _, _, he⟩⟩
    | sat m =>
      rw [he] at ho
      obtain ⟨m1, m2⟩ := h.holds ho.1
      dsimp only
      split
      · rename_i hall
        have hb := h.best ho.1 ho.2 fun y hy => of_decide_eq_true (filter_length_eq hall y hy)
        have hl := h.all.lower m1
        split
        · exact ⟨_, rfl, m1, by omega, fun v hv => h.all.lower hv⟩
        · refine ⟨_, rfl, hu1, hu2, fun v hv => ?_⟩
          have := h.all.lower hv
          omega
      · rename_i hall
        have h2 : 1 < w := by
          refine Classical.byContradiction fun hle => hall ?_
          rw [List.filter_eq_self.2 fun y hy => decide_eq_true (by have := h.all.pos y hy; omega)]
        have hpos : ∀ x ∈ st.soft.map (·.w), 1 ≤ x := fun x hx => by
          obtain ⟨y, hy, rfl⟩ := List.mem_map.1 hx
          exact h.all.pos y hy
        obtain ⟨w', d1, d2, d3, d4⟩ := updateWt_spec hpos cfg.strat true hw1
        have d5 := d4 rfl h2 hst
        rw [d1, Option.bind_some]
        obtain ⟨u', hu'⟩ : ∃ u', (if decide (st.cost m < ub) = true then m else u) = u' := ⟨_, rfl⟩
        obtain ⟨ub', hub'⟩ : ∃ ub', (if decide (st.cost m < ub) = true then st.cost m else ub) = ub' := ⟨_, rfl⟩
        rw [hu', hub']
        have hres : P.Holds u' ∧ costC u' P.soft = ub' ∧ ub' ≤ ub := by
          rw [← hu', ← hub']
          by_cases hb : st.cost m < ub
          · rw [decide_eq_true hb, if_pos rfl, if_pos rfl]
            exact ⟨m1, m2.symm, Nat.le_of_lt hb⟩
          · rw [decide_eq_false hb, if_neg Bool.false_ne_true, if_neg Bool.false_ne_true]
            exact ⟨hu1, hu2, Nat.le_refl _⟩
        obtain ⟨r1, r2, r3⟩ := hres
        split
        · refine ⟨_, rfl, r1, r2, fun v hv => ?_⟩
          have := h.all.lower hv
          omega
        · split
          · rename_i hH
            exact ⟨_, rfl, .inr ⟨k, hH⟩⟩
          · obtain ⟨g1, g2, g3⟩ := symBreak_spec h.all h.act h.su h.one (fun e => by rw [h.ix]; exact h.smi e) fun _ => h.ix
            rw [show st.sol w' = (st.symBreak cfg).solOn st.hard w' by unfold Wbo.sol Wbo.solOn; rw [g2, g3]]
            exact wboW_right hw hst hO H f (k + 1) _ _ w' lb ub' u' G K g1 r1 r2 d2 (by omega)
    | unsat core =>
      dsimp only
      obtain ⟨c1, st', G', K', r1, r2, r3, r4⟩ := h.conflict hw hO he (unw := false) (fun e => by cases e) ⟨u, hu1⟩
      have hlow := r2.all.lower hu1
      split
      · rename_i hH
        exact ⟨_, rfl, .inr ⟨k, hH⟩⟩
      · rw [r1, Option.bind_some, show st'.sol w = (st'.symBreak cfg).solOn st'.hard w by unfold Wbo.sol Wbo.solOn; rw [r3, r4]]
        exact wboW_right hw hst hO H f (k + 1) _ _ w _ ub u G' K' r2 hu1 hu2 hw1 (by omega)

/-- C30 for WBO: for positive weights and every behaviour of the SAT solver and of the handler, without symmetry clauses or with equal weights 1, the search ends; it reports the least cost with a model of that cost, or
that the hard clauses are unsatisfiable, or it was cancelled.  Missing: symmetry clauses (the default) with different weights, where it fails (`C30_wbo_symmetry_false`). -/
theorem C30_wbo_partial {P : Prob} (hw : P.WF) (hp : P.Pos) {cfg : WCfg} (hc : cfg.sym = false ∨ P.Unit) {O : Orc} (hO : O.Ok) (H : Nat → Bool) {f : Nat} (hf : P.ollFuel ≤ f) :
    ∃ r, wbo cfg P O H f = some r ∧ Right P O H r := by
  have hU : cfg.sym = true → P.Unit := fun e => by
    rcases hc with hc | hc
    · rw [hc] at e; cases e
    · exact hc
  unfold Prob.ollFuel at hf
  have hcw := one_le_curWeight (P.soft.map (·.2))
  unfold wbo
  dsimp only
  have ho := hO 0 P.hardSol []
  cases he : O 0 P.hardSol [] with
  | cancel => exact ⟨_, rfl, .inl ⟨_, _, _, he⟩⟩
  | unsat core =>
    rw [he] at ho
    refine ⟨_, rfl, fun u hu => ?_⟩
    obtain ⟨l, hl, _⟩ := ho.2.2 u hu
    exact absurd (ho.1 l hl) (by simp)
  | sat u =>
    rw [he] at ho
    dsimp only
    obtain ⟨K, i1, i2, i3⟩ := wboInit_WI (U := P.Unit) hw hp hU fun h => h
    have hu : P.Holds u := ho.1
    have hcost : P.wboInit.cost u = costC u P.soft := by
      unfold Wbo.cost
      congr 1
      exact zip_cost (fun ci => (⟨ci.1.1, ci.1.2, [], 2 * (P.n + ci.2), false⟩ : WSft)) (fun y => (y.cl, y.w)) (fun _ => rfl) _ _
    have htot : costC u P.soft ≤ (P.soft.map (·.2)).sum := costC_le_total _ _
    have hsol : ∀ w, P.wboInit.sol w = (P.wboInit.symBreak cfg).solOn P.wboInit.hard w := fun w => by unfold Wbo.sol Wbo.solOn; rw [i2, i3]
    split
    · rw [hsol, hcost]
      refine wboN_right hw (U := P.Unit) (fun e c hcs => ?_) hO H f 1 _ _ 0 _ u [] K i1 hu rfl (by omega)
      have h1 := le_curWeight (List.mem_map.2 ⟨c, hcs, rfl⟩ : c.2 ∈ P.soft.map (·.2))
      have h2 := hp c hcs
      have h3 := of_decide_eq_true e
      omega
    · rename_i hne
      obtain ⟨w', d1, d2, d3, _⟩ := updateWt_spec (ws := P.soft.map (·.2)) (fun x hx => by obtain ⟨c, hcs, rfl⟩ := List.mem_map.1 hx; exact hp c hcs) cfg.strat false hcw
      rw [d1, Option.bind_some, hsol, hcost]
      exact wboW_right hw (fun e => hne (.inr e)) hO H f 1 _ _ w' 0 _ u [] K i1 hu rfl d2 (by omega)

/-- symmetry clauses for equal weights; without them different weights, with and without stratification -/
example : ∃ O : Orc, O.Ok ∧ (∃ u, wbo {} (exP 1 1 1) O (fun _ => true) 50 = some (.opt 1 u)) ∧ (∃ u, wbo { sym := false } (exP 4 2 1) O (fun _ => true) 50 = some (.opt 1 u)) ∧
    (∃ u, wbo { sym := false, strat := .normal } (exP 4 2 1) O (fun _ => true) 50 = some (.opt 1 u)) ∧ ∃ u, wbo { sym := false, strat := .diversify } (exP 5 4 3) O (fun _ => true) 50 = some (.opt 3 u) := by
  obtain ⟨O, hO, hc⟩ := exists_ok
  refine ⟨O, hO, ?_, ?_, ?_, ?_⟩
  · obtain ⟨r, h, hr⟩ := C30_wbo_partial (exP_wf 1 1 1) (exP_pos (by omega) (by omega) (by omega)) (cfg := {}) (.inr (by unfold Prob.Unit; decide)) hO (fun _ => true) (f := 50) (by decide)
    obtain ⟨u, rfl⟩ := exP_min hc hr
    exact ⟨u, h⟩
  · obtain ⟨r, h, hr⟩ := C30_wbo_partial (exP_wf 4 2 1) (exP_pos (by omega) (by omega) (by omega)) (cfg := { sym := false }) (.inl rfl) hO (fun _ => true) (f := 50) (by decide)
    obtain ⟨u, rfl⟩ := exP_min hc hr
    exact ⟨u, h⟩
  · obtain ⟨r, h, hr⟩ := C30_wbo_partial (exP_wf 4 2 1) (exP_pos (by omega) (by omega) (by omega)) (cfg := { sym := false, strat := .normal }) (.inl rfl) hO (fun _ => true) (f := 50) (by decide)
    obtain ⟨u, rfl⟩ := exP_min hc hr
    exact ⟨u, h⟩
  · obtain ⟨r, h, hr⟩ := C30_wbo_partial (exP_wf 5 4 3) (exP_pos (by omega) (by omega) (by omega)) (cfg := { sym := false, strat := .diversify }) (.inl rfl) hO (fun _ => true) (f := 50) (by decide)
    obtain ⟨u, rfl⟩ := exP_min hc hr
    exact ⟨u, h⟩

end Verif.MaxAlg
