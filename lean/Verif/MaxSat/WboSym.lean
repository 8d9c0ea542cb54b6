import Verif.MaxSat.WboStep

/-! # WBO: the symmetry clauses -/

namespace Verif.MaxAlg

open Verif.MaxSat (litVal clauseVal costC)

/-- the conflicts of the soft clause `p` with its relaxation literals -/
def smRow (sm : List (List (Nat × Nat))) (p : Nat) : List (Nat × Nat) := sm.getD p []

/-- the tables for the symmetry clauses: `GL` are the literals of the conflicts, `rest` the literals of the last one still to come -/
structure SMI (nb : Nat) (sm : List (List (Nat × Nat))) (ix : List Nat) (soft : List WSft) (GL : List (List Nat)) (rest : List Nat) : Prop where
  num : nb = GL.length
  row : ∀ p, ∀ e ∈ smRow sm p, 1 ≤ e.1 ∧ (∃ L, GL[e.1 - 1]? = some L ∧ e.2 ∈ L) ∧ ∃ y, soft[p]? = some y ∧ y.inc = false ∧ e.2 ∈ y.vars
  srt : ∀ p, (smRow sm p).Pairwise fun a b => a.1 < b.1
  fresh : ∀ p y, soft[p]? = some y → y.a ∈ rest → ∀ e ∈ smRow sm p, e.1 < nb
  ixl : ∀ p ∈ ix, ∃ b, (smRow sm p).getLast? = some (nb, b)
  ixs : ix.Pairwise fun p q => ∀ b c, (smRow sm p).getLast? = some b → (smRow sm q).getLast? = some c → b.2 < c.2

theorem smRow_pad (sm : List (List (Nat × Nat))) (k p : Nat) : smRow (sm ++ List.replicate k []) p = smRow sm p := by
  unfold smRow
  rw [List.getD_eq_getElem?_getD, List.getD_eq_getElem?_getD, List.getElem?_append]
  split
  · rfl
  · rename_i h
    rw [List.getElem?_eq_none (Nat.le_of_not_lt h), List.getElem?_replicate]
    split <;> rfl

theorem smRow_log (sm : List (List (Nat × Nat))) (p q : Nat) (r : List (Nat × Nat)) :
    smRow ((sm ++ List.replicate (p + 1 - sm.length) []).set p r) q = if q = p then r else smRow sm q := by
  split
  · rename_i h
    subst h
    unfold smRow
    rw [List.getD_eq_getElem?_getD, List.getElem?_set_self (by rw [List.length_append, List.length_replicate]; omega)]
    rfl
  · rename_i h
    rw [← smRow_pad sm (p + 1 - sm.length) q]
    unfold smRow
    rw [List.getD_eq_getElem?_getD, List.getElem?_set_ne (fun e => h e.symm), ← List.getD_eq_getElem?_getD]

/-- the literals of the last conflict grow -/
theorem SMI.grow {nb : Nat} {sm : List (List (Nat × Nat))} {ix : List Nat} {soft soft' : List WSft} {GL : List (List Nat)} {L L' rest rest' : List Nat} (h : SMI nb sm ix soft (GL ++ [L]) rest)
    (hL : ∀ l ∈ L, l ∈ L') (hs : ∀ (p : Nat) (y : WSft), soft[p]? = some y → y.inc = false → ∃ y' : WSft, soft'[p]? = some y' ∧ y'.inc = false ∧ ∀ l ∈ y.vars, l ∈ y'.vars)
    (hf : ∀ (p : Nat) (y : WSft), soft'[p]? = some y → y.a ∈ rest' → ∀ e ∈ smRow sm p, e.1 < nb) : SMI nb sm ix soft' (GL ++ [L']) rest' where
  num := by rw [h.num]; simp
  row := by
    intro p e he
    obtain ⟨h1, ⟨M, hM, hm⟩, y, hy, hyi, hyv⟩ := h.row p e he
    refine ⟨h1, ?_, ?_⟩
    · rw [List.getElem?_append] at hM ⊢
      split at hM
      · rename_i hlt; rw [if_pos hlt]; exact ⟨M, hM, hm⟩
      · rename_i hlt
        rw [if_neg hlt]
        cases hk : e.1 - 1 - GL.length with
        | zero =>
          rw [hk] at hM
          exact ⟨L', rfl, hL _ (by rw [← Option.some.inj hM] at hm; exact hm)⟩
        | succ k => rw [hk] at hM; cases hM
    · obtain ⟨y', h2, h3, h4⟩ := hs p y hy hyi
      exact ⟨y', h2, h3, h4 _ hyv⟩
  srt := h.srt
  fresh := hf
  ixl := h.ixl
  ixs := h.ixs

/-- a soft clause gets a relaxation literal -/
theorem SMI.log {nb : Nat} {sm : List (List (Nat × Nat))} {ix : List Nat} {soft : List WSft} {GL : List (List Nat)} {L rest : List Nat} {r p : Nat} (h : SMI nb sm ix soft (GL ++ [L]) rest)
    (hL : ∀ l ∈ L, l ≠ r → l < r) (hr : r ∈ L) (hno : ∀ q, ∀ e ∈ smRow sm q, e.2 ≠ r) (hp : ∃ y, soft[p]? = some y ∧ y.inc = false ∧ r ∈ y.vars ∧ y.a ∉ rest)
    (hf : ∀ e ∈ smRow sm p, e.1 < nb) :
    SMI nb ((sm ++ List.replicate (p + 1 - sm.length) []).set p (smRow sm p ++ [(nb, r)])) (if 1 < (smRow sm p ++ [(nb, r)]).length then ix ++ [p] else ix) soft (GL ++ [L]) rest := by
  have hrow := fun q => smRow_log sm p q (smRow sm p ++ [(nb, r)])
  have hpx : ∀ q ∈ ix, q ≠ p := by
    rintro q hq rfl
    obtain ⟨b, hb⟩ := h.ixl q hq
    exact absurd (hf _ (List.mem_of_getLast? hb)) (Nat.lt_irrefl _)
  have hixl : ∀ q ∈ ix, ∃ b, (smRow ((sm ++ List.replicate (p + 1 - sm.length) []).set p (smRow sm p ++ [(nb, r)])) q).getLast? = some (nb, b) := by
    intro q hq
    rw [hrow, if_neg (hpx q hq)]
    exact h.ixl q hq
  have hixs : ix.Pairwise fun q q' => ∀ b c, (smRow ((sm ++ List.replicate (p + 1 - sm.length) []).set p (smRow sm p ++ [(nb, r)])) q).getLast? = some b →
      (smRow ((sm ++ List.replicate (p + 1 - sm.length) []).set p (smRow sm p ++ [(nb, r)])) q').getLast? = some c → b.2 < c.2 := by
    refine List.Pairwise.imp_of_mem ?_ h.ixs
    intro q q' hq hq' hr' b c
    rw [hrow, hrow, if_neg (hpx q hq), if_neg (hpx q' hq')]
    exact hr' b c
  refine { num := h.num, row := fun q e he => ?_, srt := fun q => ?_, fresh := fun q y hq hy e he => ?_, ixl := fun q hq => ?_, ixs := ?_ }
  · rw [hrow] at he
    split at he
    · rename_i e1
      subst e1
      rcases List.mem_append.1 he with he | he
      · exact h.row q e he
      · rw [List.mem_singleton.1 he]
        have hnb := h.num
        rw [List.length_append, List.length_singleton] at hnb
        refine ⟨by dsimp only; omega, ⟨L, ?_, hr⟩, ?_⟩
        · dsimp only
          rw [hnb, List.getElem?_append_right (by omega)]; simp
        · obtain ⟨y, h1, h2, h3, _⟩ := hp
          exact ⟨y, h1, h2, h3⟩
    · exact h.row q e he
  · rw [hrow]
    split
    · rename_i e1
      subst e1
      rw [List.pairwise_append]
      exact ⟨h.srt q, List.pairwise_singleton _ _, fun a ha b hb => by rw [List.mem_singleton.1 hb]; exact hf a ha⟩
    · exact h.srt q
  · rw [hrow] at he
    split at he
    · rename_i e1
      subst e1
      obtain ⟨y', h1, _, _, h4⟩ := hp
      rw [hq] at h1
      rw [Option.some.inj h1] at hy
      exact absurd hy h4
    · exact h.fresh q y hq hy e he
  · split at hq
    · rcases List.mem_append.1 hq with hq | hq
      · exact hixl q hq
      · rw [List.mem_singleton.1 hq, hrow, if_pos rfl]
        exact ⟨r, by simp⟩
    · exact hixl q hq
  · split
    · rw [List.pairwise_append]
      refine ⟨hixs, List.pairwise_singleton _ _, fun q hq q' hq' b c hb hc => ?_⟩
      rw [List.mem_singleton.1 hq', hrow, if_pos rfl] at hc
      rw [hrow, if_neg (hpx q hq)] at hb
      have ec : c = (nb, r) := by simpa using hc.symm
      rw [ec]
      obtain ⟨b', hb'⟩ := h.ixl q hq
      rw [hb] at hb'
      have eb := Option.some.inj hb'
      have hbm := List.mem_of_getLast? hb
      obtain ⟨_, ⟨M, hM, hm⟩, _⟩ := h.row q b hbm
      have hnb := h.num
      rw [List.length_append, List.length_singleton] at hnb
      rw [eb] at hM
      dsimp only at hM
      rw [hnb, List.getElem?_append_right (by omega)] at hM
      have : M = L := by simpa using hM.symm
      rw [this] at hm
      exact hL _ hm (hno q b hbm)
    · exact hixs

/-- a new conflict -/
theorem SMI.next {nb : Nat} {sm : List (List (Nat × Nat))} {ix : List Nat} {soft : List WSft} {GL : List (List Nat)} {rest : List Nat} (h : SMI nb sm [] soft GL rest) (rest' : List Nat) :
    SMI (nb + 1) sm [] soft (GL ++ [[]]) rest' where
  num := by rw [h.num]; simp
  row := by
    intro p e he
    obtain ⟨h1, ⟨M, hM, hm⟩, h3⟩ := h.row p e he
    refine ⟨h1, ⟨M, ?_, hm⟩, h3⟩
    rw [List.getElem?_append_left (List.getElem?_eq_some_iff.1 hM).1]; exact hM
  srt := h.srt
  fresh := by
    intro p y hp hy e he
    obtain ⟨h1, ⟨M, hM, hm⟩, h3⟩ := h.row p e he
    have := (List.getElem?_eq_some_iff.1 hM).1
    have := h.num
    omega
  ixl := fun p hp => by cases hp
  ixs := List.Pairwise.nil

theorem mem_symTab {sm : List (List (Nat × Nat))} {pre : List Nat} {c : Nat} {ab : Nat × Nat} (h : ab ∈ symTab sm pre c) :
    ∃ p ∈ pre, ∃ b, (smRow sm p).getLast? = some b ∧ b.2 = ab.2 ∧ (c, ab.1) ∈ (smRow sm p).dropLast := by
  unfold symTab at h
  obtain ⟨p, hp, h⟩ := List.mem_flatMap.1 h
  refine ⟨p, hp, ?_⟩
  cases hb : (sm.getD p []).getLast? with
  | none => rw [hb] at h; cases h
  | some b =>
    rw [hb] at h
    obtain ⟨e, he, rfl⟩ := List.mem_map.1 h
    obtain ⟨h1, h2⟩ := List.mem_filter.1 he
    refine ⟨b, hb, rfl, ?_⟩
    rw [← of_decide_eq_true h2]; exact h1

theorem SMI.symTab {nb : Nat} {sm : List (List (Nat × Nat))} {ix : List Nat} {soft : List WSft} {GL : List (List Nat)} {rest : List Nat} (h : SMI nb sm ix soft GL rest) {pre : List Nat}
    (hp : pre.Sublist ix) (c : Nat) : (symTab sm pre c).Pairwise fun a b => a.2 < b.2 := by
  unfold MaxAlg.symTab
  rw [List.pairwise_flatMap]
  constructor
  · intro p _
    split
    · exact List.Pairwise.nil
    · rename_i b hb
      rw [List.pairwise_map]
      have : (((sm.getD p []).dropLast.filter fun e => decide (e.1 = c))).Pairwise fun _ _ => False := by
        refine List.Pairwise.imp_of_mem ?_ (((h.srt p).sublist (List.dropLast_sublist _)).filter _)
        intro a b ha hb hab
        have h1 : a.1 = c := of_decide_eq_true (List.mem_filter.1 ha).2
        have h2 : b.1 = c := of_decide_eq_true (List.mem_filter.1 hb).2
        omega
      exact this.imp fun h => h.elim
  · refine (h.ixs.sublist hp).imp ?_
    intro p q hpq x hx y hy
    cases hb : (sm.getD p []).getLast? with
    | none => rw [hb] at hx; cases hx
    | some b =>
      cases hc : (sm.getD q []).getLast? with
      | none => rw [hc] at hy; cases hy
      | some d =>
        rw [hb] at hx
        rw [hc] at hy
        obtain ⟨_, _, rfl⟩ := List.mem_map.1 hx
        obtain ⟨_, _, rfl⟩ := List.mem_map.1 hy
        exact hpq b d hb hc

theorem mem_symPairs {xy : Nat × Nat} : ∀ {l : List (Nat × Nat)} {R : Nat × Nat → Nat × Nat → Prop}, l.Pairwise R → xy ∈ symPairs l → ∃ a ∈ l, ∃ b ∈ l, R a b ∧ xy = (a.1, b.2)
  | [], _, _, h => by cases h
  | a :: l, R, hp, h => by
    rw [List.pairwise_cons] at hp
    unfold symPairs at h
    rcases List.mem_append.1 h with h | h
    · obtain ⟨b, hb, rfl⟩ := List.mem_map.1 h
      exact ⟨a, List.mem_cons_self, b, List.mem_cons_of_mem _ hb, hp.1 b hb, rfl⟩
    · obtain ⟨a', h1, b', h2, h3, h4⟩ := mem_symPairs hp.2 h
      exact ⟨a', List.mem_cons_of_mem _ h1, b', List.mem_cons_of_mem _ h2, h3, h4⟩

/-- every symmetry clause excludes one of two assignments that can be exchanged -/
theorem SMI.cands {nb : Nat} {sm : List (List (Nat × Nat))} {ix : List Nat} {soft : List WSft} {G : List Cor} {rest : List Nat} (h : SMI nb sm ix soft (G.map (·.lits)) rest)
    (hs : G.Pairwise fun g h => ∀ a ∈ g.lits, ∀ b ∈ h.lits, a < b) {xy : Nat × Nat} (hc : xy ∈ symCands sm ix) : SymOk soft G xy.1 xy.2 := by
  unfold symCands at hc
  obtain ⟨i, _, hc⟩ := List.mem_flatMap.1 hc
  obtain ⟨c, _, hc⟩ := List.mem_flatMap.1 hc
  obtain ⟨a, ha, b, hb, hlt, rfl⟩ := mem_symPairs (h.symTab (List.take_sublist _ _) c) hc
  obtain ⟨p, hp, pl, p1, p2, p3⟩ := mem_symTab ha
  obtain ⟨q, hq, ql, q1, q2, q3⟩ := mem_symTab hb
  have hp' := List.mem_of_mem_take hp
  have hq' := List.mem_of_mem_take hq
  have two : ∀ {p : Nat} {l : Nat × Nat} {x : Nat}, p ∈ ix → (smRow sm p).getLast? = some l → (c, x) ∈ (smRow sm p).dropLast →
      ∃ g ∈ G, ∃ k ∈ G, G[c - 1]? = some g ∧ G[nb - 1]? = some k ∧ c < nb ∧ x ∈ g.lits ∧ l.2 ∈ k.lits ∧ ∃ e ∈ soft, e.inc = false ∧ x ∈ e.vars ∧ l.2 ∈ e.vars := by
    intro p l x hpx hl hx
    obtain ⟨b, hb⟩ := h.ixl p hpx
    rw [hl] at hb
    have el := Option.some.inj hb
    obtain ⟨x1, ⟨M, hM, hm⟩, e, he, hei, hev⟩ := h.row p _ ((List.dropLast_sublist _).subset hx)
    obtain ⟨y1, ⟨N, hN, hn⟩, f, hf, hfi, hfv⟩ := h.row p _ (List.mem_of_getLast? hl)
    rw [he] at hf
    have ef := Option.some.inj hf
    subst ef
    rw [List.getElem?_map, Option.map_eq_some_iff] at hM hN
    obtain ⟨g, hg, rfl⟩ := hM
    obtain ⟨k, hk, rfl⟩ := hN
    have hlt : c < nb := by
      have hsr := h.srt p
      rw [← List.dropLast_append_getLast? _ hl, List.pairwise_append] at hsr
      have := hsr.2.2 _ hx l (List.mem_singleton.2 rfl)
      rw [el] at this; exact this
    rw [el] at hk
    exact ⟨g, List.mem_of_getElem? hg, k, List.mem_of_getElem? hk, hg, hk, hlt, hm, hn, e, List.mem_of_getElem? he, hei, hev, hfv⟩
  obtain ⟨g, hg, k, hk, g1, k1, lt1, a1, a2, e, he, hei, e1, e2⟩ := two hp' p1 p3
  obtain ⟨g', hg', k', hk', g1', k1', _, b1, b2, f, hf, hfi, f1, f2⟩ := two hq' q1 q3
  rw [g1] at g1'
  rw [k1] at k1'
  have eg := Option.some.inj g1'
  have ek := Option.some.inj k1'
  subst eg ek
  rw [p2] at a2 e2
  rw [q2] at b2 f2
  have hc1 : 1 ≤ c := (h.row p _ ((List.dropLast_sublist _).subset p3)).1
  refine ⟨g, hg, k, hk, b.1, b1, a.2, a2, a1, b2, ?_, hlt, e, he, f, hf, hei, hfi, e1, e2, f1, f2⟩
  obtain ⟨i1, hi1⟩ := List.getElem?_eq_some_iff.1 g1
  obtain ⟨i2, hi2⟩ := List.getElem?_eq_some_iff.1 k1
  have := List.pairwise_iff_getElem.1 hs (c - 1) (nb - 1) i1 i2 (by omega)
  rw [hi1, hi2] at this
  exact this

/-- adding the symmetry clauses -/
theorem WInv.addSyms {P : Prob} {S : Prop} (hS : S) {n lb : Nat} {soft : List WSft} {G : List Cor} {K : Nat → Knd} {cfg : WCfg} : ∀ {cs : List (Nat × Nat)} {st : Wbo}, WInv P S n st.hard soft G K lb →
    (∀ xy ∈ cs, SymOk soft G xy.1 xy.2) →
    WInv P S n (cs.foldl (Wbo.addSym cfg) st).hard soft G K lb ∧ (∀ c ∈ st.hard, c ∈ (cs.foldl (Wbo.addSym cfg) st).hard) ∧ (cs.foldl (Wbo.addSym cfg) st).n = st.n ∧
      (cs.foldl (Wbo.addSym cfg) st).soft = st.soft ∧ (cs.foldl (Wbo.addSym cfg) st).sm = st.sm ∧ (cs.foldl (Wbo.addSym cfg) st).nb = st.nb
  | [], st, h, _ => ⟨h, fun _ h => h, rfl, rfl, rfl, rfl⟩
  | xy :: cs, st, h, hc => by
    rw [List.foldl_cons]
    have h1 : WInv P S n (Wbo.addSym cfg st xy).hard soft G K lb ∧ (∀ c ∈ st.hard, c ∈ (Wbo.addSym cfg st xy).hard) ∧ (Wbo.addSym cfg st xy).n = st.n ∧ (Wbo.addSym cfg st xy).soft = st.soft ∧
        (Wbo.addSym cfg st xy).sm = st.sm ∧ (Wbo.addSym cfg st xy).nb = st.nb := by
      unfold Wbo.addSym
      split
      · exact ⟨h, fun _ h => h, rfl, rfl, rfl, rfl⟩
      · refine ⟨{ h with sub := fun c hc => List.mem_cons_of_mem _ (h.sub c hc), eos := fun g hg c hc => List.mem_cons_of_mem _ (h.eos g hg c hc), cls := fun c hcc => ?_ }, fun c hc => List.mem_cons_of_mem _ hc, rfl, rfl, rfl, rfl⟩
        rcases List.mem_cons.1 hcc with rfl | hcc
        · exact .inr (.inr ⟨hS, _, _, rfl, hc xy List.mem_cons_self⟩)
        · exact h.cls c hcc
    obtain ⟨g1, g2, g3, g4, g5, g6⟩ := h1
    obtain ⟨k1, k2, k3, k4, k5, k6⟩ := WInv.addSyms hS (cfg := cfg) g1 fun xy hxy => hc xy (List.mem_cons_of_mem _ hxy)
    exact ⟨k1, fun c hc => k2 c (g2 c hc), k3.trans g3, k4.trans g4, k5.trans g5, k6.trans g6⟩

end Verif.MaxAlg
