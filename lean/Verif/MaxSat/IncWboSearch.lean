import Verif.MaxSat.IncWbo
import Verif.MaxSat.WboSearch

/-! # C30: IncWBO -/

namespace Verif.MaxAlg

open Verif.MaxSat (litVal clauseVal costC)

/-! ## relaxing a conflict -/

/-- the soft clause is replaced by a relaxed one -/
theorem Step1.copy {S : Prop} {mc n : Nat} {y : WSft} (hi : y.inc = false) (hw : y.w = mc) (hm : 0 < mc) :
    Step1 S mc n n (n + 2) y { y with inc := true } [⟨y.cl, mc, y.vars ++ [2 * n], 2 * (n + 1), false⟩] where
  np := Nat.le_refl n
  nn := by omega
  cl := fun z hz => by
    rcases List.mem_cons.1 hz with rfl | hz
    · rfl
    · rw [List.mem_singleton.1 hz]
  a := rfl
  ea := fun z hz => by rw [List.mem_singleton.1 hz]; dsimp only; omega
  ean := by simp
  w := fun z hz => by
    rcases List.mem_cons.1 hz with rfl | hz
    · dsimp only; omega
    · rw [List.mem_singleton.1 hz]; exact hm
  vars := fun z hz l hl => by
    rcases List.mem_cons.1 hz with rfl | hz
    · exact .inl hl
    · rw [List.mem_singleton.1 hz] at hl
      rcases List.mem_append.1 hl with hl | hl
      · exact .inl hl
      · exact .inr (List.mem_singleton.1 hl)
  rv := fun u => by
    obtain ⟨c, w, vs, a, i⟩ := y
    dsimp only at hi hw ⊢
    subst hi hw
    unfold remW
    rw [List.map_singleton, List.sum_singleton]
    unfold MaxAlg.rv
    rw [fals_snoc u c vs w (2 * (n + 1)) a (2 * n) false false]
    cases fals u ⟨c, w, vs, a, false⟩ <;> cases litVal u (2 * n) <;> simp
  cost := fun u => by
    simp [hi, hw]
  uniq := fun _ y1 h1 z1 h2 i1 i2 _ _ _ => by
    rcases List.mem_cons.1 h1 with rfl | h1
    · cases i1
    · rcases List.mem_cons.1 h2 with rfl | h2
      · cases i2
      · rw [List.mem_singleton.1 h1, List.mem_singleton.1 h2]
  act := fun _ _ _ => hi
  succ := fun _ => ⟨_, List.mem_cons_of_mem _ (List.mem_singleton.2 rfl), rfl, fun l hl => List.mem_append_left _ hl⟩

/-- the soft clause is replaced by one with the rest of the weight and a relaxed one -/
theorem Step1.copy2 {S : Prop} (hS : ¬ S) {mc n : Nat} {y : WSft} (hi : y.inc = false) (hw : mc < y.w) (hm : 0 < mc) :
    Step1 S mc n (n + 1) (n + 3) y { y with w := y.w - mc, inc := true } [⟨y.cl, y.w - mc, y.vars, 2 * n, false⟩, ⟨y.cl, mc, y.vars ++ [2 * (n + 1)], 2 * (n + 2), false⟩] where
  np := by omega
  nn := by omega
  cl := fun z hz => by
    simp only [List.mem_cons, List.not_mem_nil, or_false] at hz
    rcases hz with rfl | rfl | rfl <;> rfl
  a := rfl
  ea := fun z hz => by
    simp only [List.mem_cons, List.not_mem_nil, or_false] at hz
    rcases hz with rfl | rfl <;> dsimp only <;> omega
  ean := by
    simp only [List.map_cons, List.map_nil, List.nodup_cons, List.mem_singleton, List.not_mem_nil, not_false_eq_true, List.nodup_nil, and_self, and_true]
    omega
  w := fun z hz => by
    simp only [List.mem_cons, List.not_mem_nil, or_false] at hz
    rcases hz with rfl | rfl | rfl <;> dsimp only <;> omega
  vars := fun z hz l hl => by
    simp only [List.mem_cons, List.not_mem_nil, or_false] at hz
    rcases hz with rfl | rfl | rfl
    · exact .inl hl
    · exact .inl hl
    · rcases List.mem_append.1 hl with hl | hl
      · exact .inl hl
      · exact .inr (List.mem_singleton.1 hl)
  rv := fun u => by
    obtain ⟨c, w, vs, a, i⟩ := y
    dsimp only at hi hw ⊢
    subst hi
    rw [remW_cons, remW_cons]
    unfold remW MaxAlg.rv
    rw [fals_snoc u c vs mc (2 * (n + 2)) a (2 * (n + 1)) false false]
    have e1 : fals u ⟨c, mc, vs, a, false⟩ = fals u ⟨c, w, vs, a, false⟩ := rfl
    have e2 : fals u ⟨c, w - mc, vs, 2 * n, false⟩ = fals u ⟨c, w, vs, a, false⟩ := rfl
    rw [e1, e2]
    cases fals u ⟨c, w, vs, a, false⟩ <;> cases litVal u (2 * (n + 1)) <;> simp <;> omega
  cost := fun u => by
    simp only [List.filter_cons, hi, Bool.not_false, Bool.not_true, Bool.false_eq_true, if_false, if_pos, List.filter_nil, List.map_cons, List.map_nil]
    simp only [costC]
    split <;> omega
  uniq := fun h => absurd h hS
  act := fun _ _ _ => hi
  succ := fun _ => ⟨_, List.mem_cons_of_mem _ List.mem_cons_self, rfl, fun l hl => hl⟩

/-- the clauses on the solver: the clauses `hs`, clauses of soft clauses (of all active ones of at least the weight `w`) and assumption literals of inactive ones -/
structure Slv (hs : List (List Nat)) (w : Nat) (st : Wbo) : Prop where
  sub : ∀ c ∈ hs, c ∈ st.hard
  mem : ∀ c ∈ st.hard, c ∈ hs ∨ ∃ y ∈ st.soft, c = y.clause ∨ (y.inc = true ∧ c = [y.a])
  don : ∀ y ∈ st.soft, y.inc = false → w ≤ y.w → y.clause ∈ st.hard

/-- a soft clause `y` is deactivated and `E` are added with their clauses -/
theorem Slv.step {hs : List (List Nat)} {w : Nat} {st st' : Wbo} (h : Slv hs w st) {i : Nat} {y y' : WSft} {E : List WSft} (hy : st.soft[i]? = some y) (hc : y'.clause = y.clause) (ha : y'.a = y.a) (hi : y'.inc = true)
    (hsoft : st'.soft = st.soft.set i y' ++ E) (hhard : st'.hard = [y.a] :: (E.reverse.map WSft.clause ++ st.hard)) : Slv hs w st' where
  sub := fun c hc => by rw [hhard]; exact List.mem_cons_of_mem _ (List.mem_append_right _ (h.sub c hc))
  mem := fun c hcm => by
    have hil := (List.getElem?_eq_some_iff.1 hy).1
    have hy' : y' ∈ st'.soft := by rw [hsoft]; exact List.mem_append_left _ (List.mem_set hil y')
    rw [hhard] at hcm
    rcases List.mem_cons.1 hcm with rfl | hcm
    · exact .inr ⟨y', hy', .inr ⟨hi, by rw [ha]⟩⟩
    · rcases List.mem_append.1 hcm with hcm | hcm
      · obtain ⟨z, hz, rfl⟩ := List.mem_map.1 hcm
        exact .inr ⟨z, by rw [hsoft]; exact List.mem_append_right _ (List.mem_reverse.1 hz), .inl rfl⟩
      · rcases h.mem c hcm with hcm | ⟨z, hz, hzc⟩
        · exact .inl hcm
        · obtain ⟨j, hj⟩ := List.mem_iff_getElem?.1 hz
          by_cases e : j = i
          · subst e
            rw [hy] at hj
            obtain rfl := Option.some.inj hj
            refine .inr ⟨y', hy', ?_⟩
            rcases hzc with hzc | hzc
            · exact .inl (by rw [hc]; exact hzc)
            · exact .inr ⟨hi, by rw [ha]; exact hzc.2⟩
          · exact .inr ⟨z, by rw [hsoft]; exact List.mem_append_left _ (List.mem_of_getElem? (by rw [List.getElem?_set_ne (Ne.symm e)]; exact hj)), hzc⟩
  don := fun z hz hzi hzw => by
    rw [hsoft] at hz
    rw [hhard]
    rcases List.mem_append.1 hz with hz | hz
    · rcases List.mem_or_eq_of_mem_set hz with hz | rfl
      · exact List.mem_cons_of_mem _ (List.mem_append_right _ (h.don z hz hzi hzw))
      · rw [hi] at hzi; cases hzi
    · exact List.mem_cons_of_mem _ (List.mem_append_left _ (List.mem_map.2 ⟨z, List.mem_reverse.2 hz, rfl⟩))

/-- further clauses on the solver -/
theorem Slv.add {hs N : List (List Nat)} {w : Nat} {st st' : Wbo} (h : Slv hs w st) (hsoft : st'.soft = st.soft) (hhard : st'.hard = N ++ st.hard) : Slv (N ++ hs) w st' where
  sub := fun c hc => by
    rw [hhard]
    rcases List.mem_append.1 hc with hc | hc
    · exact List.mem_append_left _ hc
    · exact List.mem_append_right _ (h.sub c hc)
  mem := fun c hc => by
    rw [hhard] at hc
    rw [hsoft]
    rcases List.mem_append.1 hc with hc | hc
    · exact .inl (List.mem_append_left _ hc)
    · rcases h.mem c hc with hc | hc
      · exact .inl (List.mem_append_right _ hc)
      · exact .inr hc
  don := fun y hy hyi hyw => by
    rw [hsoft] at hy
    rw [hhard]
    exact List.mem_append_right _ (h.don y hy hyi hyw)

/-- `incrementalBuildWeightSolver` -/
theorem Slv.build {hs : List (List Nat)} {w w' : Nat} {st : Wbo} (h : Slv hs w st) (hp : ∀ y ∈ st.soft, 0 < y.w) : Slv hs w' (st.build w') where
  sub := fun c hc => List.mem_append_right _ (h.sub c hc)
  mem := fun c hc => by
    rcases List.mem_append.1 hc with hc | hc
    · obtain ⟨y, hy, rfl⟩ := List.mem_map.1 hc
      exact .inr ⟨y, (List.mem_filter.1 hy).1, .inl rfl⟩
    · exact h.mem c hc
  don := fun y hy hyi hyw => List.mem_append_left _ (List.mem_map.2 ⟨y, List.mem_filter.2 ⟨hy, by
    have := hp y hy
    rw [decide_eq_true hyw, decide_eq_true (by omega)]; rfl⟩, rfl⟩)

theorem log_len (cfg : WCfg) (st : Wbo) {p r : Nat} (h : p < st.sm.length) : (st.log cfg p r).sm.length = st.sm.length := by
  unfold Wbo.log
  split
  · dsimp only
    rw [List.length_set, List.length_append, List.length_replicate]; omega
  · rfl

/-- the row of a soft clause moves to a new one -/
theorem smRow_move {sm : List (List (Nat × Nat))} {i : Nat} (hi : i < sm.length) (p : Nat) : smRow (sm.set i [] ++ [sm.getD i []]) p = if p = i then [] else if p = sm.length then smRow sm i else smRow sm p := by
  unfold smRow
  rw [List.getD_eq_getElem?_getD, List.getElem?_append, List.length_set]
  split
  · rename_i hp
    by_cases e : p = i
    · subst e; rw [if_pos rfl, List.getElem?_set_self hp]; rfl
    · rw [if_neg e, if_neg (by omega), List.getElem?_set_ne (Ne.symm e), ← List.getD_eq_getElem?_getD]
  · rename_i hp
    rw [if_neg (by omega)]
    split
    · rename_i e
      subst e
      rw [Nat.sub_self]; rfl
    · rw [List.getElem?_eq_none (by simp; omega), List.getD_eq_getElem?_getD, List.getElem?_eq_none (by omega)]

theorem SMI.move {nb : Nat} {sm : List (List (Nat × Nat))} {ix : List Nat} {soft : List WSft} {GL : List (List Nat)} {L rest : List Nat} {q r i : Nat} {y y' z : WSft} (h : SMI nb sm ix soft (GL ++ [L]) (q :: rest))
    (hl : sm.length = soft.length) (hy : soft[i]? = some y) (hyq : y.a = q) (hya : y'.a = q) (hq : q ∉ rest) (hza : z.a ∉ rest) (hzi : z.inc = false) (hzv : ∀ l ∈ y.vars, l ∈ z.vars) :
    SMI nb (sm.set i [] ++ [sm.getD i []]) ix (soft.set i y' ++ [z]) (GL ++ [L ++ [r]]) rest := by
  have hil := (List.getElem?_eq_some_iff.1 hy).1
  have hrow := fun p => smRow_move (sm := sm) (i := i) (by omega) p
  have hne : ∀ p ∈ ix, p ≠ i ∧ p ≠ sm.length := by
    intro p hp
    obtain ⟨b, hb⟩ := h.ixl p hp
    have hm := List.mem_of_getLast? hb
    constructor
    · rintro rfl
      exact absurd (h.fresh p y hy (by rw [hyq]; exact List.mem_cons_self) _ hm) (Nat.lt_irrefl _)
    · rintro rfl
      obtain ⟨_, _, y1, h1, _⟩ := h.row _ _ hm
      rw [List.getElem?_eq_none (by omega)] at h1; cases h1
  have hixr : ∀ p ∈ ix, smRow (sm.set i [] ++ [sm.getD i []]) p = smRow sm p := fun p hp => by rw [hrow, if_neg (hne p hp).1, if_neg (hne p hp).2]
  have grow : ∀ (e : Nat × Nat), (∃ M, (GL ++ [L])[e.1 - 1]? = some M ∧ e.2 ∈ M) → ∃ M, (GL ++ [L ++ [r]])[e.1 - 1]? = some M ∧ e.2 ∈ M := by
    rintro e ⟨M, hM, hm⟩
    rw [List.getElem?_append] at hM ⊢
    split at hM
    · rename_i hlt; rw [if_pos hlt]; exact ⟨M, hM, hm⟩
    · rename_i hlt
      rw [if_neg hlt]
      cases hk : e.1 - 1 - GL.length with
      | zero =>
        rw [hk] at hM
        exact ⟨_, rfl, List.mem_append_left _ (by rw [← Option.some.inj hM] at hm; exact hm)⟩
      | succ k => rw [hk] at hM; cases hM
  have hnew : (soft.set i y' ++ [z])[sm.length]? = some z := by rw [List.getElem?_append_right (by rw [List.length_set]; omega), List.length_set, hl, Nat.sub_self]; rfl
  refine { num := by rw [h.num]; simp, row := fun p e he => ?_, srt := fun p => ?_, fresh := fun p x hp hx e he => ?_, ixl := fun p hp => ?_, ixs := ?_ }
  · rw [hrow] at he
    split at he
    · cases he
    · rename_i e1
      split at he
      · rename_i e2
        subst e2
        obtain ⟨g1, g2, x, g3, g4, g5⟩ := h.row i e he
        rw [hy] at g3
        obtain rfl := Option.some.inj g3
        exact ⟨g1, grow e g2, z, hnew, hzi, hzv _ g5⟩
      · obtain ⟨g1, g2, x, g3, g4, g5⟩ := h.row p e he
        have hpl := (List.getElem?_eq_some_iff.1 g3).1
        exact ⟨g1, grow e g2, x, by rw [List.getElem?_append_left (by rw [List.length_set]; exact hpl), List.getElem?_set_ne (Ne.symm e1)]; exact g3, g4, g5⟩
  · rw [hrow]
    split
    · exact List.Pairwise.nil
    · split
      · exact h.srt i
      · exact h.srt p
  · rw [hrow] at he
    split at he
    · cases he
    · rename_i e1
      split at he
      · rename_i e2
        subst e2
        rw [hnew] at hp
        obtain rfl := Option.some.inj hp
        exact absurd hx hza
      · rename_i e2
        obtain ⟨_, _, x1, g3, _⟩ := h.row p e he
        have hpl := (List.getElem?_eq_some_iff.1 g3).1
        rw [List.getElem?_append_left (by rw [List.length_set]; exact hpl), List.getElem?_set_ne (Ne.symm e1)] at hp
        exact h.fresh p x hp (List.mem_cons_of_mem _ hx) e he
  · rw [hixr p hp]; exact h.ixl p hp
  · refine List.Pairwise.imp_of_mem ?_ h.ixs
    intro p p' hp hp' hr b c
    rw [hixr p hp, hixr p' hp']
    exact hr b c

/-- the search state while a conflict is relaxed -/
structure FI (U : Prop) (cfg : WCfg) (P : Prob) (mc n0 : Nat) (soft0 : List WSft) (K0 : Nat → Knd) (core : List Nat) (GL : List (List Nat)) (hs : List (List Nat)) (w : Nat) (st : Wbo) (PL : List (WSft × Nat))
    (K : Nat → Knd) (rest : List Nat) : Prop extends FInv P (cfg.sym = true) mc n0 soft0 K0 core st.n st.soft PL K rest where
  ne : ∀ y ∈ st.soft, y.cl ≠ []
  su : cfg.sym = true → U
  one : U → ∀ y ∈ st.soft, y.w = 1
  len : cfg.sym = true → st.sm.length = st.soft.length
  smi : cfg.sym = true → SMI st.nb st.sm st.ix st.soft (GL ++ [PL.map (·.2)]) rest
  ixe : cfg.sym = false → st.ix = []
  slv : Slv hs w st
  rl : ∀ q ∈ rest, q / 2 < n0

theorem relaxInc1_spec {U : Prop} {cfg : WCfg} {P : Prob} {mc n0 q w : Nat} {soft0 : List WSft} {K0 K : Nat → Knd} {core rest : List Nat} {GL hs : List (List Nat)} {st : Wbo} {PL : List (WSft × Nat)}
    (h : FI U cfg P mc n0 soft0 K0 core GL hs w st PL K (q :: rest)) (hq : q ∉ rest) (hm : 0 < mc) (hex : ∃ y ∈ soft0, y.a = q ∧ mc ≤ y.w ∧ y.inc = false) :
    ∃ st' PL' K', Wbo.relaxInc1 cfg mc (st, PL.map (·.2)) q = some (st', PL'.map (·.2)) ∧ FI U cfg P mc n0 soft0 K0 core GL hs w st' PL' K' rest := by
  obtain ⟨y, hy0, hyq, hyw, hyi⟩ := hex
  have hys : y ∈ st.soft := h.left y hy0 (by rw [hyq]; exact List.mem_cons_self)
  have hget := coreIdxW_of h.anodup hys
  rw [hyq] at hget
  obtain ⟨i, hi⟩ : ∃ i, coreIdxW st.soft q = i := ⟨_, rfl⟩
  rw [hi] at hget
  have hil := (List.getElem?_eq_some_iff.1 hget).1
  have hrl : ∀ q ∈ rest, q / 2 < n0 := fun q hq => h.rl q (List.mem_cons_of_mem _ hq)
  have hnn := h.nn
  unfold Wbo.relaxInc1
  dsimp only
  rw [hi, hget]
  dsimp only
  split
  · rename_i hwm
    obtain ⟨y', hy'⟩ : ∃ y' : WSft, { y with inc := true } = y' := ⟨_, rfl⟩
    obtain ⟨z, hz⟩ : ∃ z : WSft, ⟨y.cl, mc, y.vars ++ [2 * st.n], 2 * (st.n + 1), false⟩ = z := ⟨_, rfl⟩
    have hstep := Step1.copy (S := cfg.sym = true) (n := st.n) hyi hwm hm
    rw [hy', hz] at hstep ⊢
    have hf := h.toFInv.step hq hget hy0 hyq hstep
    obtain ⟨s1, hs1⟩ : ∃ s1 : Wbo, { st with n := st.n + 2, soft := st.soft.set i y' ++ [z], hard := [y.a] :: z.clause :: st.hard, sm := if cfg.sym then st.sm.set i [] ++ [st.sm.getD i []] else st.sm } = s1 := ⟨_, rfl⟩
    have b1 : s1.n = st.n + 2 := by rw [← hs1]
    have b2 : s1.soft = st.soft.set i y' ++ [z] := by rw [← hs1]
    have b3 : s1.hard = [y.a] :: z.clause :: st.hard := by rw [← hs1]
    have b4 : s1.nb = st.nb := by rw [← hs1]
    have b5 : s1.ix = st.ix := by rw [← hs1]
    have b6 : cfg.sym = true → s1.sm = st.sm.set i [] ++ [st.sm.getD i []] := fun e => by rw [← hs1]; dsimp only; rw [if_pos e]
    rw [hs1]
    obtain ⟨l1, l2, l3, l4⟩ := log_same cfg s1 st.soft.length (2 * st.n)
    refine ⟨_, PL ++ [(y, 2 * st.n)], stepK K st.n st.n, (by rw [List.map_append]; exact rfl), ?_⟩
    have hmem : ∀ x ∈ s1.soft, x.cl ≠ [] ∧ (U → x.w = 1) := by
      intro x hx
      rw [b2] at hx
      rcases List.mem_append.1 hx with hx | hx
      · rcases List.mem_or_eq_of_mem_set hx with hx | rfl
        · exact ⟨h.ne x hx, fun hs => h.one hs x hx⟩
        · rw [← hy']; exact ⟨h.ne y hys, fun hs => h.one hs y hys⟩
      · rw [List.mem_singleton.1 hx, ← hz]
        exact ⟨h.ne y hys, fun hs => by dsimp only; rw [← hwm]; exact h.one hs y hys⟩
    have hlen1 : cfg.sym = true → s1.sm.length = st.soft.length + 1 := fun hs => by rw [b6 hs, List.length_append, List.length_set, h.len hs]; rfl
    refine { toFInv := by rw [l1, l2, b1, b2]; exact hf, ne := fun x hx => ?_, su := h.su, one := fun hs x hx => ?_, len := fun hs => ?_, smi := fun hs => ?_, ixe := fun hs => ?_, slv := ?_, rl := hrl }
    · rw [l2] at hx; exact (hmem x hx).1
    · rw [l2] at hx; exact (hmem x hx).2 hs
    · rw [log_len _ _ (by rw [hlen1 hs]; omega), hlen1 hs, l2, b2]; simp
    · have hsm := h.smi hs
      have hza : z.a ∉ rest := fun hr => by
        have := hrl _ hr
        rw [← hz] at this
        dsimp only at this
        omega
      have hg : SMI s1.nb s1.sm s1.ix s1.soft (GL ++ [PL.map (·.2) ++ [2 * st.n]]) rest := by
        rw [b4, b6 hs, b5, b2]
        exact hsm.move (h.len hs) hget hyq (by rw [← hy']; exact hyq) hq hza (by rw [← hz]) fun l hl => by rw [← hz]; exact List.mem_append_left _ hl
      have hrow : ∀ p, smRow s1.sm p = if p = i then [] else if p = st.sm.length then smRow st.sm i else smRow st.sm p := fun p => by
        rw [b6 hs]; exact smRow_move (by rw [h.len hs]; exact hil) p
      have hrowL : smRow s1.sm st.soft.length = smRow st.sm i := by rw [hrow, if_neg (by omega), if_pos (h.len hs).symm]
      rw [List.map_append]
      unfold Wbo.log
      dsimp only
      have hpad : (s1.sm ++ List.replicate (st.soft.length + 1 - s1.sm.length) ([] : List (Nat × Nat))).getD st.soft.length [] = smRow s1.sm st.soft.length := smRow_pad _ _ _
      rw [hpad]
      split
      · refine hg.log (fun l hl hne => ?_) (List.mem_append_right _ (List.mem_singleton.2 rfl)) (fun p e he => ?_) ⟨z, ?_, by rw [← hz], by rw [← hz]; exact List.mem_append_right _ (List.mem_singleton.2 rfl), hza⟩ fun e he => ?_
        · rcases List.mem_append.1 hl with hl | hl
          · obtain ⟨x, hx, rfl⟩ := List.mem_map.1 hl
            have := h.lits x hx
            omega
          · exact absurd (List.mem_singleton.1 hl) hne
        · have key : ∀ p, ∀ e ∈ smRow st.sm p, e.2 ≠ 2 * st.n := fun p e he => by
            obtain ⟨_, _, x, hx, _, hv⟩ := hsm.row p e he
            have := (h.vars x (List.mem_of_getElem? hx) _ hv).2.1
            omega
          rw [hrow] at he
          split at he
          · cases he
          · split at he
            · exact key _ e he
            · exact key _ e he
        · rw [b2, List.getElem?_append_right (by rw [List.length_set]; exact Nat.le_refl _), List.length_set, Nat.sub_self]; rfl
        · rw [hrowL] at he
          rw [b4]
          exact hsm.fresh i y hget (by rw [hyq]; exact List.mem_cons_self) e he
      · exact hg
    · rw [log_ix hs, b5]; exact h.ixe hs
    · refine h.slv.step hget (y' := y') (E := [z]) (by rw [← hy']; rfl) (by rw [← hy']) (by rw [← hy']) (l2.trans b2) (l3.trans b3)
  · rename_i hwm
    have hnu : ¬ U := fun hs => hwm (by have := h.one hs y hys; omega)
    have hns : ¬ cfg.sym = true := fun hs => hnu (h.su hs)
    obtain ⟨y', hy'⟩ : ∃ y' : WSft, { y with w := y.w - mc, inc := true } = y' := ⟨_, rfl⟩
    obtain ⟨r, hr⟩ : ∃ r : WSft, ⟨y.cl, y.w - mc, y.vars, 2 * st.n, false⟩ = r := ⟨_, rfl⟩
    obtain ⟨z, hz⟩ : ∃ z : WSft, ⟨y.cl, mc, y.vars ++ [2 * (st.n + 1)], 2 * (st.n + 2), false⟩ = z := ⟨_, rfl⟩
    have hstep := Step1.copy2 (S := cfg.sym = true) hns (n := st.n) hyi (by omega) hm
    rw [hy', hr, hz] at hstep ⊢
    have hf := h.toFInv.step hq hget hy0 hyq hstep
    obtain ⟨s1, hs1⟩ : ∃ s1 : Wbo, { st with n := st.n + 3, soft := st.soft.set i y' ++ [r, z], hard := [y.a] :: z.clause :: r.clause :: st.hard, sm := if cfg.sym then st.sm.set i [] ++ [st.sm.getD i [], []] else st.sm } = s1 := ⟨_, rfl⟩
    have b1 : s1.n = st.n + 3 := by rw [← hs1]
    have b2 : s1.soft = st.soft.set i y' ++ [r, z] := by rw [← hs1]
    have b3 : s1.hard = [y.a] :: z.clause :: r.clause :: st.hard := by rw [← hs1]
    have b5 : s1.ix = st.ix := by rw [← hs1]
    rw [hs1]
    obtain ⟨l1, l2, l3, l4⟩ := log_same cfg s1 (st.soft.length + 1) (2 * (st.n + 1))
    refine ⟨_, PL ++ [(y, 2 * (st.n + 1))], stepK K st.n (st.n + 1), (by rw [List.map_append]; exact rfl), ?_⟩
    refine { toFInv := by rw [l1, l2, b1, b2]; exact hf, ne := fun x hx => ?_, su := h.su, one := fun hs => absurd hs hnu, len := fun hs => absurd hs hns, smi := fun hs => absurd hs hns, ixe := fun hs => ?_, slv := ?_, rl := hrl }
    · rw [l2, b2] at hx
      rcases List.mem_append.1 hx with hx | hx
      · rcases List.mem_or_eq_of_mem_set hx with hx | rfl
        · exact h.ne x hx
        · rw [← hy']; exact h.ne y hys
      · simp only [List.mem_cons, List.not_mem_nil, or_false] at hx
        rcases hx with rfl | rfl
        · rw [← hr]; exact h.ne y hys
        · rw [← hz]; exact h.ne y hys
    · rw [log_ix hs, b5]; exact h.ixe hs
    · refine h.slv.step hget (y' := y') (E := [r, z]) (by rw [← hy']; rfl) (by rw [← hy']) (by rw [← hy']) (l2.trans b2) (l3.trans b3)

theorem relaxIncAll_spec {U : Prop} {cfg : WCfg} {P : Prob} {mc n0 w : Nat} {soft0 : List WSft} {K0 : Nat → Knd} {core : List Nat} {GL hs : List (List Nat)} (hm : 0 < mc) :
    ∀ {rest : List Nat} {st : Wbo} {PL : List (WSft × Nat)} {K : Nat → Knd}, FI U cfg P mc n0 soft0 K0 core GL hs w st PL K rest → rest.Nodup → (∀ q ∈ rest, ∃ y ∈ soft0, y.a = q ∧ mc ≤ y.w ∧ y.inc = false) →
    ∃ st' PL' K', rest.foldlM (Wbo.relaxInc1 cfg mc) (st, PL.map (·.2)) = some (st', PL'.map (·.2)) ∧ FI U cfg P mc n0 soft0 K0 core GL hs w st' PL' K' []
  | [], st, PL, K, h, _, _ => ⟨st, PL, K, rfl, h⟩
  | q :: rest, st, PL, K, h, hn, hex => by
    rw [List.nodup_cons] at hn
    obtain ⟨s1, PL1, K1, e1, f1⟩ := relaxInc1_spec h hn.1 hm (hex q List.mem_cons_self)
    obtain ⟨s2, PL2, K2, e2, f2⟩ := relaxIncAll_spec hm f1 hn.2 fun q hq => hex q (List.mem_cons_of_mem _ hq)
    exact ⟨s2, PL2, K2, by rw [List.foldlM_cons, e1]; exact e2, f2⟩

/-! ## the search state -/

/-- the search state: `hs` are the clauses on the solver which do not stem from soft clauses -/
structure II (U : Prop) (P : Prob) (cfg : WCfg) (st : Wbo) (w : Nat) (hs : List (List Nat)) (lb : Nat) (G : List Cor) (K : Nat → Knd) : Prop where
  inv : WInv P (cfg.sym = true) st.n hs st.soft G K lb
  slv : Slv hs w st
  ne : ∀ y ∈ st.soft, y.cl ≠ []
  su : cfg.sym = true → U
  one : U → ∀ y ∈ st.soft, y.w = 1
  ix : st.ix = []
  len : cfg.sym = true → st.sm.length = st.soft.length
  smi : cfg.sym = true → SMI st.nb st.sm [] st.soft (G.map (·.lits)) []

/-- the clauses added by `symmetryBreakingInc` -/
theorem addSyms_eq (cfg : WCfg) : ∀ (cs : List (Nat × Nat)) (st : Wbo), ∃ N, (cs.foldl (Wbo.addSym cfg) st).hard = N ++ st.hard ∧ (∀ c ∈ N, ∃ xy ∈ cs, c = [neg xy.1, neg xy.2]) ∧
    (cs.foldl (Wbo.addSym cfg) st).n = st.n ∧ (cs.foldl (Wbo.addSym cfg) st).soft = st.soft ∧ (cs.foldl (Wbo.addSym cfg) st).sm = st.sm ∧ (cs.foldl (Wbo.addSym cfg) st).nb = st.nb
  | [], st => ⟨[], rfl, (fun c hc => by cases hc), rfl, rfl, rfl, rfl⟩
  | xy :: cs, st => by
    rw [List.foldl_cons]
    obtain ⟨N, h1, h2, h3, h4, h5, h6⟩ := addSyms_eq cfg cs (Wbo.addSym cfg st xy)
    have g : ∃ M, (Wbo.addSym cfg st xy).hard = M ++ st.hard ∧ (∀ c ∈ M, c = [neg xy.1, neg xy.2]) ∧ (Wbo.addSym cfg st xy).n = st.n ∧ (Wbo.addSym cfg st xy).soft = st.soft ∧
        (Wbo.addSym cfg st xy).sm = st.sm ∧ (Wbo.addSym cfg st xy).nb = st.nb := by
      unfold Wbo.addSym
      split
      · exact ⟨[], rfl, (fun c hc => by cases hc), rfl, rfl, rfl, rfl⟩
      · exact ⟨[_], rfl, fun c hc => List.mem_singleton.1 hc, rfl, rfl, rfl, rfl⟩
    obtain ⟨M, m1, m2, m3, m4, m5, m6⟩ := g
    refine ⟨N ++ M, by rw [h1, m1, List.append_assoc], fun c hc => ?_, h3.trans m3, h4.trans m4, h5.trans m5, h6.trans m6⟩
    rcases List.mem_append.1 hc with hc | hc
    · obtain ⟨x, hx, e⟩ := h2 c hc
      exact ⟨x, List.mem_cons_of_mem _ hx, e⟩
    · exact ⟨xy, List.mem_cons_self, m2 c hc⟩

theorem WInv.addN {P : Prob} {S : Prop} (hS : S) {n lb : Nat} {hs N : List (List Nat)} {soft : List WSft} {G : List Cor} {K : Nat → Knd} (h : WInv P S n hs soft G K lb)
    (hN : ∀ c ∈ N, ∃ x y, c = [neg x, neg y] ∧ SymOk soft G x y) : WInv P S n (N ++ hs) soft G K lb :=
  { h with
    sub := fun c hc => List.mem_append_right _ (h.sub c hc)
    eos := fun g hg c hc => List.mem_append_right _ (h.eos g hg c hc)
    cls := fun c hc => by
      rcases List.mem_append.1 hc with hc | hc
      · exact .inr (.inr ⟨hS, hN c hc⟩)
      · exact h.cls c hc }

/-- `symmetryBreakingInc` -/
theorem symBreakInc_spec {U : Prop} {P : Prob} {cfg : WCfg} {st : Wbo} {w lb : Nat} {hs : List (List Nat)} {G : List Cor} {K : Nat → Knd} (h : WInv P (cfg.sym = true) st.n hs st.soft G K lb) (hv : Slv hs w st)
    (ha : ∀ y ∈ st.soft, y.cl ≠ []) (hU : cfg.sym = true → U) (h1 : U → ∀ y ∈ st.soft, y.w = 1) (hl : cfg.sym = true → st.sm.length = st.soft.length)
    (hm : cfg.sym = true → SMI st.nb st.sm st.ix st.soft (G.map (·.lits)) []) (hx : cfg.sym = false → st.ix = []) :
    ∃ hs', II U P cfg (st.symBreak cfg) w hs' lb G K := by
  unfold Wbo.symBreak
  split
  · rename_i hsym
    have clr : ∀ {sm : List (List (Nat × Nat))} {nb : Nat} {ix : List Nat}, SMI nb sm ix st.soft (G.map (·.lits)) [] → SMI nb sm [] st.soft (G.map (·.lits)) [] := fun h =>
      { h with ixl := (fun p hp => by cases hp), ixs := List.Pairwise.nil }
    split
    · obtain ⟨N, k1, k2, k3, k4, k5, k6⟩ := addSyms_eq cfg (symCands st.sm st.ix) st
      obtain ⟨st', hst⟩ : ∃ st', (symCands st.sm st.ix).foldl (Wbo.addSym cfg) st = st' := ⟨_, rfl⟩
      rw [hst] at k1 k3 k4 k5 k6 ⊢
      refine ⟨N ++ hs, ⟨?_, hv.add k4 k1, ?_, hU, ?_, rfl, fun e => ?_, fun e => ?_⟩⟩
      · dsimp only; rw [k3, k4]
        refine WInv.addN hsym h fun c hc => ?_
        obtain ⟨xy, hxy, e⟩ := k2 c hc
        exact ⟨xy.1, xy.2, e, (hm hsym).cands h.sorted hxy⟩
      · dsimp only; rw [k4]; exact ha
      · dsimp only; rw [k4]; exact h1
      · dsimp only; rw [k4, k5]; exact hl e
      · dsimp only; rw [k4, k5, k6]; exact clr (hm e)
    · exact ⟨hs, ⟨h, ⟨hv.sub, hv.mem, hv.don⟩, ha, hU, h1, rfl, hl, fun e => clr (hm e)⟩⟩
  · rename_i hsym
    exact ⟨hs, ⟨h, hv, ha, hU, h1, hx (by simpa using hsym), hl, fun e => absurd e hsym⟩⟩

/-- a relaxed conflict -/
theorem relaxCoreInc_spec {U : Prop} {P : Prob} (hw : P.WF) {cfg : WCfg} {st : Wbo} {hs : List (List Nat)} {w lb mc : Nat} {G : List Cor} {K : Nat → Knd} (h : II U P cfg st w hs lb G K) {core : List Nat} (hn : core.Nodup)
    (hm : 0 < mc) (hex : ∀ q ∈ core, ∃ y ∈ st.soft, y.a = q ∧ mc ≤ y.w ∧ y.inc = false) (hP : ∃ v, P.Holds v)
    (hc : ∀ u : Nat → Bool, (∀ c ∈ hs, clauseVal u c = true) → (∀ y ∈ st.soft, litVal u y.a = (y.inc || fals u y)) → ∃ l ∈ core, litVal u l = true) :
    ∃ st' hs' G' K', Wbo.relaxCoreInc cfg mc { st with nb := st.nb + 1 } core = some st' ∧ II U P cfg st' w hs' (lb + mc) G' K' := by
  have hcore : ∀ u : Nat → Bool, (∀ c ∈ hs, clauseVal u c = true) → (∀ y ∈ st.soft, litVal u y.a = (y.inc || fals u y)) → ∃ y ∈ st.soft, y.a ∈ core ∧ fals u y = true := by
    intro u h1 h2
    obtain ⟨l, hl, ht⟩ := hc u h1 h2
    obtain ⟨y, hy, e, _, hyi⟩ := hex l hl
    subst e
    refine ⟨y, hy, hl, ?_⟩
    rw [h2 y hy, hyi] at ht
    simpa using ht
  have hF : FI U cfg P mc st.n st.soft K core (G.map (·.lits)) hs w { st with nb := st.nb + 1 } [] K core := by
    refine { toSOk := h.inv.toSOk, nn := Nat.le_refl _, kext := fun _ _ => rfl, lits := (fun q hq => by cases hq), srt := List.Pairwise.nil, src := (fun q hq => by cases hq), rem := (fun u => by simp [saved]), left := fun y hy _ => hy, done := fun y _ hy => .inl hy, uniq := h.inv.uniq, succ := fun y hy hi => ⟨y, hy, hi, fun l hl => hl⟩, ne := h.ne, su := h.su, one := h.one, len := h.len, smi := fun e => ?_, ixe := fun _ => h.ix, slv := ⟨h.slv.sub, h.slv.mem, h.slv.don⟩, rl := fun q hq => ?_ }
    · have := (h.smi e).next (ix := []) core
      dsimp only
      rw [h.ix]; exact this
    · obtain ⟨y, hy, e, _⟩ := hex q hq
      rw [← e]; exact (h.inv.a y hy).2.1
  obtain ⟨s1, PL, K1, e1, f1⟩ := relaxIncAll_spec hm hF hn hex
  have hne : PL.map (·.2) ≠ [] := by
    intro e0
    obtain ⟨v, hv⟩ := hP
    obtain ⟨u, _, u2, u3, _⟩ := h.inv.model hw hv
    obtain ⟨y, hy, hyc, _⟩ := hcore u u2 u3
    rcases f1.done y hy hyc with hd | ⟨p, hp⟩
    · cases hd
    · rw [List.map_eq_nil_iff] at e0
      rw [e0] at hp; cases hp
  obtain ⟨e, he, _⟩ := encodeEO_some hne s1.n
  have hW := WInv.close hw h.inv f1.toFInv he hcore
  obtain ⟨st', hst⟩ : ∃ st' : Wbo, { s1 with n := s1.n + e.2, hard := e.1 ++ s1.hard } = st' := ⟨_, rfl⟩
  have hv : Slv (e.1 ++ hs) w st' := f1.slv.add (by rw [← hst]) (by rw [← hst])
  have key : ∃ hs', II U P cfg (st'.symBreak cfg) w hs' (lb + mc) (G ++ [⟨PL.map (·.2), s1.n⟩]) (auxK K1 s1.n (PL.map (·.2))) := by
    refine symBreakInc_spec (hs := e.1 ++ hs) ?_ hv ?_ h.su ?_ ?_ ?_ ?_
    · rw [← hst]; exact hW
    · rw [← hst]; exact f1.ne
    · rw [← hst]; exact f1.one
    · rw [← hst]; exact f1.len
    · rw [← hst]
      intro e
      rw [List.map_append]
      exact f1.smi e
    · rw [← hst]; exact f1.ixe
  obtain ⟨hs', hk⟩ := key
  refine ⟨_, hs', _, _, ?_, hk⟩
  unfold Wbo.relaxCoreInc
  have e1' : core.foldlM (Wbo.relaxInc1 cfg mc) ({ st with nb := st.nb + 1 }, []) = some (s1, PL.map (·.2)) := e1
  rw [e1', Option.bind_some, he, Option.map_some, hst]

/-! ## the initial state -/

theorem incInit_II {U : Prop} {P : Prob} (hw : P.WF) (hp : P.Pos) (hne : ∀ c ∈ P.soft, c.1 ≠ []) {cfg : WCfg} (hU : cfg.sym = true → U) (h1 : U → P.Unit) {w : Nat} {st : Wbo}
    (hn : st.n = P.wboInit.n) (hs : st.soft = P.wboInit.soft) (hsm : st.sm = P.wboInit.sm) (hnb : st.nb = 0) (hix : st.ix = []) (hv : Slv P.hard w st) : ∃ K, II U P cfg st w P.hard 0 [] K := by
  have hr : ∀ p, smRow P.wboInit.sm p = [] := by
    intro p
    unfold smRow
    dsimp only [Prob.wboInit]
    rw [List.getD_eq_getElem?_getD, List.getElem?_map]
    cases P.soft[p]? <;> rfl
  refine ⟨_, { inv := by rw [hn, hs]; exact wboInit_WInv hw hp _, slv := hv, ne := fun y hy => ?_, su := hU, one := fun hu y hy => ?_, ix := hix, len := fun _ => by rw [hsm, hs]; simp [Prob.wboInit], smi := fun _ => ?_ }⟩
  · rw [hs] at hy
    obtain ⟨ci, hci, rfl⟩ := List.mem_map.1 hy
    exact hne _ (List.fst_mem_of_mem_zipIdx hci)
  · rw [hs] at hy
    obtain ⟨ci, hci, rfl⟩ := List.mem_map.1 hy
    exact h1 hu _ (List.fst_mem_of_mem_zipIdx hci)
  · rw [hsm, hs]
    exact { num := hnb, row := (fun p e he => by rw [hr] at he; cases he), srt := (fun p => by rw [hr]; exact List.Pairwise.nil), fresh := (fun p y _ hy => by cases hy), ixl := (fun p hp => by cases hp), ixs := List.Pairwise.nil }

/-! ## the searches -/

theorem II.holds {U : Prop} {P : Prob} {cfg : WCfg} {st : Wbo} {hs : List (List Nat)} {lb w : Nat} {G : List Cor} {K : Nat → Knd} (h : II U P cfg st w hs lb G K) {m : Nat → Bool} (hm : Sol.Holds ⟨st.n, st.hard⟩ m) :
    P.Holds m ∧ st.costInc m = costC m P.soft := by
  refine ⟨fun c hc => hm c (h.slv.sub c (h.inv.sub c hc)), ?_⟩
  rw [← h.inv.cost m]
  unfold Wbo.costInc
  rw [List.filter_congr fun y hy => ?_]
  rw [List.isEmpty_eq_false_iff.2 (h.ne y hy), Bool.or_false]

/-- a model under all assumptions -/
theorem II.best {U : Prop} {P : Prob} {cfg : WCfg} {st : Wbo} {hs : List (List Nat)} {lb w : Nat} {G : List Cor} {K : Nat → Knd} (h : II U P cfg st w hs lb G K) {m : Nat → Bool} (hm : Sol.Holds ⟨st.n, st.hard⟩ m)
    (ht : ∀ a ∈ st.asmInc, litVal m a = true) (hall : ∀ y ∈ st.soft, w ≤ y.w) : costC m P.soft ≤ lb := by
  refine h.inv.allTrue (fun c hc => hm c (h.slv.sub c hc)) fun y hy hyi => ⟨hm _ (h.slv.don y hy hyi (hall y hy)), ?_⟩
  have := ht _ (List.mem_map.2 ⟨y, List.mem_filter.2 ⟨hy, by rw [hyi]; rfl⟩, rfl⟩)
  rw [litVal_neg] at this
  simpa using this

/-- a conflict -/
theorem II.conflict {U : Prop} {P : Prob} (hw : P.WF) {cfg : WCfg} {st : Wbo} {hs : List (List Nat)} {lb w : Nat} {G : List Cor} {K : Nat → Knd} (h : II U P cfg st w hs lb G K) {O : Orc} (hO : O.Ok) {k : Nat}
    {core : List Nat} (he : O k ⟨st.n, st.hard⟩ st.asmInc = .unsat core) {unw : Bool} (hu : unw = true → ∀ y ∈ st.soft, y.w = 1) (hP : ∃ v, P.Holds v) :
    0 < coreCost unw st.soft core ∧ ∃ st' hs' G' K', Wbo.relaxCoreInc cfg (coreCost unw st.soft core) { st with nb := st.nb + 1 } core = some st' ∧
      II U P cfg st' w hs' (lb + coreCost unw st.soft core) G' K' := by
  have ho := hO k ⟨st.n, st.hard⟩ st.asmInc
  rw [he] at ho
  obtain ⟨o1, o2, o3⟩ := ho
  have hex : ∀ q ∈ core, ∃ y ∈ st.soft, y.a = q ∧ y.inc = false := fun q hq => by
    obtain ⟨y, hy, e⟩ := List.mem_map.1 (o1 q hq)
    exact ⟨y, (List.mem_filter.1 hy).1, by rw [← neg_neg q, ← e, neg_neg], by simpa using (List.mem_filter.1 hy).2⟩
  obtain ⟨c1, c2⟩ := coreCost_spec h.inv.anodup h.inv.pos hu (core := core) fun q hq => by obtain ⟨y, hy, e, _⟩ := hex q hq; exact ⟨y, hy, e⟩
  refine ⟨c1, relaxCoreInc_spec hw h o2 c1 (fun q hq => ?_) hP fun u h1 h2 => o3 u fun c hc => ?_⟩
  · obtain ⟨y, hy, e, g⟩ := c2 q hq
    obtain ⟨y2, hy2, e2, g2⟩ := hex q hq
    rw [eq_of_a h.inv.anodup hy2 hy (e2.trans e.symm)] at g2
    exact ⟨y, hy, e, g, g2⟩
  · rcases h.slv.mem c hc with hc | ⟨y, hy, rfl | ⟨hyi, rfl⟩⟩
    · exact h1 c hc
    · exact clause_true (h2 y hy)
    · have := h2 y hy
      rw [hyi, Bool.true_or] at this
      simp [clauseVal, this]

/-- `normalSearchInc` -/
theorem incN_right {P : Prob} (hw : P.WF) {cfg : WCfg} {unw : Bool} {U : Prop} (hu : unw = true → U) {O : Orc} (hO : O.Ok) (H : Nat → Bool) : ∀ (f k : Nat) (st : Wbo) (hs : List (List Nat)) (lb ub : Nat)
    (u : Nat → Bool) (G : List Cor) (K : Nat → Knd), II U P cfg st 0 hs lb G K → P.Holds u → costC u P.soft = ub → (ub - lb) + 1 ≤ f →
    ∃ r, incN cfg unw O H f k st lb ub u = some r ∧ Right P O H r
  | 0, _, _, _, _, _, _, _, _, _, _, _, hf => by omega
  | f + 1, k, st, hs, lb, ub, u, G, K, h, hu1, hu2, hf => by
    unfold incN
    have ho := hO k ⟨st.n, st.hard⟩ st.asmInc
    cases he : O k ⟨st.n, st.hard⟩ st.asmInc with
    | cancel => exact ⟨_, rfl, .inl ⟨_, _, _, he⟩⟩
    | sat m =>
      rw [he] at ho
      obtain ⟨m1, m2⟩ := h.holds ho.1
      have hb := h.best ho.1 ho.2 fun _ _ => Nat.zero_le _
      refine ⟨_, rfl, m1, m2.symm, fun v hv => ?_⟩
      have := h.inv.lower hv
      omega
    | unsat core =>
      dsimp only
      obtain ⟨c1, st', hs', G', K', r1, r2⟩ := h.conflict hw hO he (unw := unw) (fun e => h.one (hu e)) ⟨u, hu1⟩
      have hlow := r2.inv.lower hu1
      split
      · refine ⟨_, rfl, hu1, hu2, fun v hv => ?_⟩
        have := r2.inv.lower hv
        omega
      · split
        · rename_i hH
          exact ⟨_, rfl, .inr ⟨k, hH⟩⟩
        · rw [r1, Option.bind_some]
          exact incN_right hw hu hO H f (k + 1) _ _ _ ub u G' K' r2 hu1 hu2 (by omega)

theorem II.build {U : Prop} {P : Prob} {cfg : WCfg} {st : Wbo} {hs : List (List Nat)} {lb w : Nat} {G : List Cor} {K : Nat → Knd} (h : II U P cfg st w hs lb G K) (w' : Nat) : II U P cfg (st.build w') w' hs lb G K :=
  ⟨h.inv, h.slv.build h.inv.pos, h.ne, h.su, h.one, h.ix, h.len, h.smi⟩

/-- `weightSearchInc` -/
theorem incW_right {P : Prob} (hw : P.WF) {cfg : WCfg} (hst : cfg.strat ≠ .none) {U : Prop} {O : Orc} (hO : O.Ok) (H : Nat → Bool) : ∀ (f k : Nat) (st : Wbo) (hs : List (List Nat)) (w lb ub : Nat)
    (u : Nat → Bool) (G : List Cor) (K : Nat → Knd), II U P cfg st w hs lb G K → P.Holds u → costC u P.soft = ub → 1 ≤ w → (ub - lb) + w + 1 ≤ f →
    ∃ r, incW cfg O H f k st w lb ub u = some r ∧ Right P O H r
  | 0, _, _, _, _, _, _, _, _, _, _, _, _, _, hf => by omega
  | f + 1, k, st, hs, w, lb, ub, u, G, K, h, hu1, hu2, hw1, hf => by
    unfold incW
    have ho := hO k ⟨st.n, st.hard⟩ st.asmInc
    cases he : O k ⟨st.n, st.hard⟩ st.asmInc with
    | cancel => exact ⟨_, rfl, .inl ⟨_, _, _, he⟩⟩
    | sat m =>
      rw [he] at ho
      obtain ⟨m1, m2⟩ := h.holds ho.1
      dsimp only
      split
      · rename_i hall
        have hb := h.best ho.1 ho.2 fun y hy => by
          have := filter_length_eq hall y hy
          rw [Bool.and_eq_true] at this
          exact of_decide_eq_true this.1
        have hl := h.inv.lower m1
        split
        · exact ⟨_, rfl, m1, by omega, fun v hv => h.inv.lower hv⟩
        · refine ⟨_, rfl, hu1, hu2, fun v hv => ?_⟩
          have := h.inv.lower hv
          omega
      · rename_i hall
        have h2 : 1 < w := by
          refine Classical.byContradiction fun hle => hall ?_
          rw [List.filter_eq_self.2 fun y hy => by
            have := h.inv.pos y hy
            rw [decide_eq_true (by omega), decide_eq_true (by omega)]; rfl]
        have hpos : ∀ x ∈ st.soft.map (·.w), 1 ≤ x := fun x hx => by
          obtain ⟨y, hy, rfl⟩ := List.mem_map.1 hx
          exact h.inv.pos y hy
        obtain ⟨w', d1, d2, d3, d4⟩ := updateWt_spec hpos cfg.strat true hw1
        have d5 := d4 rfl h2 hst
        rw [d1, Option.bind_some]
        obtain ⟨u', hu'⟩ : ∃ u', (if decide (st.costInc m < ub) = true then m else u) = u' := ⟨_, rfl⟩
        obtain ⟨ub', hub'⟩ : ∃ ub', (if decide (st.costInc m < ub) = true then st.costInc m else ub) = ub' := ⟨_, rfl⟩
        rw [hu', hub']
        have hres : P.Holds u' ∧ costC u' P.soft = ub' ∧ ub' ≤ ub := by
          rw [← hu', ← hub']
          by_cases hb : st.costInc m < ub
          · rw [decide_eq_true hb, if_pos rfl, if_pos rfl]
            exact ⟨m1, m2.symm, Nat.le_of_lt hb⟩
          · rw [decide_eq_false hb, if_neg Bool.false_ne_true, if_neg Bool.false_ne_true]
            exact ⟨hu1, hu2, Nat.le_refl _⟩
        obtain ⟨r1, r2, r3⟩ := hres
        split
        · refine ⟨_, rfl, r1, r2, fun v hv => ?_⟩
          have := h.inv.lower hv
          omega
        · split
          · rename_i hH
            exact ⟨_, rfl, .inr ⟨k, hH⟩⟩
          · exact incW_right hw hst hO H f (k + 1) _ _ w' lb ub' u' G K (h.build w') r1 r2 d2 (by omega)
    | unsat core =>
      dsimp only
      obtain ⟨c1, st', hs', G', K', r1, r2⟩ := h.conflict hw hO he (unw := false) (fun e => by cases e) ⟨u, hu1⟩
      have hlow := r2.inv.lower hu1
      split
      · rename_i hH
        exact ⟨_, rfl, .inr ⟨k, hH⟩⟩
      · rw [r1, Option.bind_some]
        exact incW_right hw hst hO H f (k + 1) _ _ w _ ub u G' K' (r2.build w) hu1 hu2 hw1 (by omega)

/-- C30 for IncWBO: for positive weights, soft clauses which are not empty (the API adds one literal) and every behaviour of the SAT solver and of the handler, without symmetry clauses or with equal weights 1, the search
ends; it reports the least cost with a model of that cost, or that the hard clauses are unsatisfiable, or it was cancelled.  Missing: symmetry clauses (the default) with different weights, where it fails
(`C30_incwbo_symmetry_false`). -/
theorem C30_incwbo_partial {P : Prob} (hw : P.WF) (hp : P.Pos) (hne : ∀ c ∈ P.soft, c.1 ≠ []) {cfg : WCfg} (hc : cfg.sym = false ∨ P.Unit) {O : Orc} (hO : O.Ok) (H : Nat → Bool) {f : Nat} (hf : P.ollFuel ≤ f) :
    ∃ r, incWbo cfg P O H f = some r ∧ Right P O H r := by
  have hU : cfg.sym = true → P.Unit := fun e => by
    rcases hc with hc | hc
    · rw [hc] at e; cases e
    · exact hc
  unfold Prob.ollFuel at hf
  have hcw := one_le_curWeight (P.soft.map (·.2))
  unfold incWbo
  dsimp only
  have ho := hO 0 P.hardSol []
  cases he : O 0 P.hardSol [] with
  | cancel => exact ⟨_, rfl, .inl ⟨_, _, _, he⟩⟩
  | unsat core =>
    rw [he] at ho
    refine ⟨_, rfl, fun u hu => ?_⟩
    obtain ⟨l, hl, _⟩ := ho.2.2 u hu
    exact absurd (ho.1 l hl) (by simp)
  | sat u =>
    rw [he] at ho
    dsimp only
    have hu : P.Holds u := ho.1
    have hcost : P.wboInit.cost u = costC u P.soft := by
      unfold Wbo.cost
      congr 1
      exact zip_cost (fun ci => (⟨ci.1.1, ci.1.2, [], 2 * (P.n + ci.2), false⟩ : WSft)) (fun y => (y.cl, y.w)) (fun _ => rfl) _ _
    have htot : costC u P.soft ≤ (P.soft.map (·.2)).sum := costC_le_total _ _
    split
    · rw [hcost]
      obtain ⟨K, i1⟩ := incInit_II (U := P.Unit) hw hp hne (cfg := cfg) hU (fun h => h) (w := 0) (st := { P.wboInit with hard := (P.wboInit.sol 0).cs }) rfl rfl rfl rfl rfl
        { sub := fun c hc => List.mem_append_left _ hc
          mem := fun c hc => by
            rcases List.mem_append.1 hc with hc | hc
            · exact .inl hc
            · obtain ⟨y, hy, rfl⟩ := List.mem_map.1 hc
              exact .inr ⟨y, (List.mem_filter.1 hy).1, .inl rfl⟩
          don := fun y hy _ _ => List.mem_append_right _ (List.mem_map.2 ⟨y, List.mem_filter.2 ⟨hy, decide_eq_true (Nat.zero_le _)⟩, rfl⟩) }
      refine incN_right hw (U := P.Unit) (fun e c hcs => ?_) hO H f 1 _ _ 0 _ u [] K i1 hu rfl (by omega)
      have h1 := le_curWeight (List.mem_map.2 ⟨c, hcs, rfl⟩ : c.2 ∈ P.soft.map (·.2))
      have h2 := hp c hcs
      have h3 := of_decide_eq_true e
      omega
    · rename_i hst
      obtain ⟨w', d1, d2, d3, _⟩ := updateWt_spec (ws := P.soft.map (·.2)) (fun x hx => by obtain ⟨c, hcs, rfl⟩ := List.mem_map.1 hx; exact hp c hcs) cfg.strat false hcw
      rw [d1, Option.bind_some, hcost]
      have hi := wboInit_WInv hw hp (cfg.sym = true)
      obtain ⟨K, i1⟩ := incInit_II (U := P.Unit) hw hp hne (cfg := cfg) hU (fun h => h) (w := w') (st := P.wboInit.build w') rfl rfl rfl rfl rfl
        { sub := fun c hc => List.mem_append_right _ hc
          mem := fun c hc => by
            rcases List.mem_append.1 hc with hc | hc
            · obtain ⟨y, hy, rfl⟩ := List.mem_map.1 hc
              exact .inr ⟨y, (List.mem_filter.1 hy).1, .inl rfl⟩
            · exact .inl hc
          don := fun y hy _ hyw => List.mem_append_left _ (List.mem_map.2 ⟨y, List.mem_filter.2 ⟨hy, by
            have := hi.pos y hy
            rw [decide_eq_true hyw, decide_eq_true (by omega)]; rfl⟩, rfl⟩) }
      exact incW_right hw (fun e => hst (.inr e)) hO H f 1 _ _ w' 0 _ u [] K i1 hu rfl d2 (by omega)

/-- symmetry clauses for equal weights; without them different weights, with and without stratification -/
example : ∃ O : Orc, O.Ok ∧ (∃ u, incWbo {} (exP 1 1 1) O (fun _ => true) 50 = some (.opt 1 u)) ∧ (∃ u, incWbo { sym := false } (exP 4 2 1) O (fun _ => true) 50 = some (.opt 1 u)) ∧
    ∃ u, incWbo { sym := false, strat := .diversify } (exP 5 4 3) O (fun _ => true) 50 = some (.opt 3 u) := by
  obtain ⟨O, hO, hc⟩ := exists_ok
  refine ⟨O, hO, ?_, ?_, ?_⟩
  · obtain ⟨r, h, hr⟩ := C30_incwbo_partial (exP_wf 1 1 1) (exP_pos (by omega) (by omega) (by omega)) (by decide) (cfg := {}) (.inr (by unfold Prob.Unit; decide)) hO (fun _ => true) (f := 50) (by decide)
    obtain ⟨u, rfl⟩ := exP_min hc hr
    exact ⟨u, h⟩
  · obtain ⟨r, h, hr⟩ := C30_incwbo_partial (exP_wf 4 2 1) (exP_pos (by omega) (by omega) (by omega)) (by decide) (cfg := { sym := false }) (.inl rfl) hO (fun _ => true) (f := 50) (by decide)
    obtain ⟨u, rfl⟩ := exP_min hc hr
    exact ⟨u, h⟩
  · obtain ⟨r, h, hr⟩ := C30_incwbo_partial (exP_wf 5 4 3) (exP_pos (by omega) (by omega) (by omega)) (by decide) (cfg := { sym := false, strat := .diversify }) (.inl rfl) hO (fun _ => true) (f := 50) (by decide)
    obtain ⟨u, rfl⟩ := exP_min hc hr
    exact ⟨u, h⟩

end Verif.MaxAlg
