import Verif.Drup.Lemmas
/-!
# Invariant of the DRUP check under propagation and analysis
-/
namespace Verif.Drup

/-- `Bs`: the clauses as parsed.  `W`: the clauses in the watch lists.  `L`: the assumptions of the lemma being checked.  `i`: clauses from `i` on may not be used. -/
structure Inv (Bs : List (List Int)) (W : Nat → Prop) (L : List Int) (i : Nat) (s : D) : Prop where
  len : s.cls.length = Bs.length
  mlen : s.mkd.length = Bs.length
  ile : i ≤ Bs.length
  nz : ∀ b ∈ Bs, ∀ l ∈ b, l ≠ 0
  perm : ∀ (c : Nat) b, s.cls[c]? = some b → ∃ b0, Bs[c]? = some b0 ∧ b.Perm b0
  on : ∀ c : Nat, W c → ∃ b, s.cls[c]? = some b ∧ 2 ≤ b.length ∧ ∀ l, cnt s c l = (b.take 2).count l
  off : ∀ c, ¬ W c → ∀ l, cnt s c l = 0
  lt : ∀ c, W c → c < i
  fls : ∀ l, s.fls l ≠ 0 ↔ l ∈ s.stk
  just : Just s.cls s.reason L i s.stk

/-- a clause with a true literal whose reason is another clause -/
def Blk (Bs : List (List Int)) (s : D) (c : Nat) : Prop :=
  ∃ b t, Bs[c]? = some b ∧ t ∈ b ∧ -t ∈ s.stk ∧ s.reason t.natAbs ≠ 0 ∧ s.reason t.natAbs ≠ c + 1

/-- propagation without conflict -/
structure Ext (W : Nat → Prop) (s s' : D) : Prop where
  stk : ∃ ext, s'.stk = ext ++ s.stk ∧ ∀ l ∈ s.stk, l ∉ ext
  rs : ∀ l ∈ s.stk, s'.reason l.natAbs = s.reason l.natAbs
  rw : ∀ v c, s'.reason v = c + 1 → s.reason v = c + 1 ∨ W c
  fr : (∀ v, s.reason v ≠ 0 → ∃ l ∈ s.stk, l.natAbs = v) → ∀ v, s'.reason v ≠ 0 → ∃ l ∈ s'.stk, l.natAbs = v
  cls : ∀ c : Nat, ¬ W c → s'.cls[c]? = s.cls[c]?
  mkd : s'.mkd = s.mkd
  forced : s'.forced = s.forced

theorem Ext.refl (W : Nat → Prop) (s : D) : Ext W s s :=
  ⟨⟨[], rfl, fun _ _ h => by cases h⟩, fun _ _ => rfl, fun _ _ h => .inl h, fun h => h, fun _ _ => rfl, rfl, rfl⟩

theorem Ext.mem {W : Nat → Prop} {s s' : D} (h : Ext W s s') {l : Int} (hl : l ∈ s.stk) : l ∈ s'.stk := by
  obtain ⟨e, h1, _⟩ := h.stk
  rw [h1]; exact List.mem_append_right _ hl

theorem Ext.trans {W : Nat → Prop} {s s' s'' : D} (h : Ext W s s') (g : Ext W s' s'') : Ext W s s'' := by
  obtain ⟨e, h1, h2⟩ := h.stk
  obtain ⟨f, g1, g2⟩ := g.stk
  refine ⟨⟨f ++ e, by rw [g1, h1, List.append_assoc], fun l hl => ?_⟩, fun l hl => (g.rs l (h.mem hl)).trans (h.rs l hl), fun v c hv => ?_, fun k => g.fr (h.fr k), fun c hc => (g.cls c hc).trans (h.cls c hc),
    g.mkd.trans h.mkd, g.forced.trans h.forced⟩
  · rw [List.mem_append, not_or]
    exact ⟨g2 l (h.mem hl), h2 l hl⟩
  · rcases g.rw v c hv with hv | hv
    · exact h.rw v c hv
    · exact .inr hv

/-- the clauses marked so far and before `i` hold -/
def AllTr (Bs : List (List Int)) (m : List Bool) (i : Nat) (v : Nat → Bool) : Prop := ∀ c < i, m[c]? = some true → ∀ b, Bs[c]? = some b → Tr v b

/-- propagation with a conflict, after the analysis -/
structure Conf (Bs : List (List Int)) (W : Nat → Prop) (L : List Int) (i : Nat) (s s' : D) : Prop where
  inv : Inv Bs W L i s'
  stk : s'.stk = kept s.forced s.stk
  rs : ∀ l ∈ s'.stk, s'.reason l.natAbs = s.reason l.natAbs
  rw : ∀ v c, s'.reason v = c + 1 → s.reason v = c + 1 ∨ W c
  cls : ∀ c : Nat, ¬ W c → s'.cls[c]? = s.cls[c]?
  forced : s'.forced = s.forced
  processed : s'.processed = s.forced
  mono : ∀ c : Nat, s.mkd[c]? = some true → s'.mkd[c]? = some true
  new : ∀ c : Nat, s'.mkd[c]? = some true → s.mkd[c]? = some true ∨ (c < i ∧ ¬ Blk Bs s c)
  rup : ∀ v, AllTr Bs s'.mkd i v → ∃ l ∈ L, val v l = true

theorem kept_append {n : Nat} {e st : List Int} (h : n ≤ st.length) : kept n (e ++ st) = kept n st := by
  unfold kept
  rw [List.length_append, (by omega : e.length + st.length - n = e.length + (st.length - n)), List.drop_append]
  simp

theorem Ext.blk {Bs : List (List Int)} {W : Nat → Prop} {s s' : D} (h : Ext W s s') {c : Nat} (hb : Blk Bs s c) : Blk Bs s' c := by
  obtain ⟨b, t, h1, h2, h3, h4, h5⟩ := hb
  have := h.rs _ h3
  rw [Int.natAbs_neg] at this
  exact ⟨b, t, h1, h2, h.mem h3, by rw [this]; exact h4, by rw [this]; exact h5⟩

theorem Ext.conf {Bs : List (List Int)} {W : Nat → Prop} {L : List Int} {i : Nat} {s s' s'' : D} (hf : s.forced ≤ s.stk.length) (h : Ext W s s') (g : Conf Bs W L i s' s'') : Conf Bs W L i s s'' := by
  have hk : s''.stk = kept s.forced s.stk := by
    obtain ⟨e, h1, _⟩ := h.stk
    rw [g.stk, h1, h.forced, kept_append hf]
  refine ⟨g.inv, hk, fun l hl => ?_, fun v c hv => ?_, fun c hc => (g.cls c hc).trans (h.cls c hc), g.forced.trans h.forced, g.processed.trans h.forced, fun c hc => g.mono c (by rw [h.mkd]; exact hc), fun c hc => ?_, g.rup⟩
  · rw [g.rs l hl, h.rs l (kept_sub (hk ▸ hl))]
  · rcases g.rw v c hv with hv | hv
    · exact h.rw v c hv
    · exact .inr hv
  · rcases g.new c hc with h1 | ⟨h1, h2⟩
    · rw [h.mkd] at h1; exact .inl h1
    · exact .inr ⟨h1, fun hb => h2 (h.blk hb)⟩

section
variable {Bs : List (List Int)} {W : Nat → Prop} {L : List Int} {i : Nat}

theorem Inv.nz' {s : D} (h : Inv Bs W L i s) : ∀ b ∈ s.cls, ∀ l ∈ b, l ≠ 0 := by
  intro b hb l hl
  obtain ⟨c, hc⟩ := List.mem_iff_getElem?.1 hb
  obtain ⟨b0, h1, h2⟩ := h.perm c b hc
  exact h.nz b0 (List.mem_of_getElem? h1) l (h2.mem_iff.1 hl)

theorem Inv.fls0 {s : D} (h : Inv Bs W L i s) {l : Int} : s.fls l = 0 ↔ l ∉ s.stk := by
  rw [← h.fls l, not_not]

/-- another order of the literals of a watched clause which is not a reason -/
theorem Inv.setBody {s s' : D} (h : Inv Bs W L i s) {c : Nat} {b b' : List Int} (hW : W c) (hb : s.cls[c]? = some b) (hp : b'.Perm b) (hl : 2 ≤ b'.length)
    (hr : ∀ l ∈ s.stk, s.reason l.natAbs ≠ c + 1) (e1 : s'.cls = s.cls.set c b') (e2 : s'.mkd = s.mkd) (e3 : s'.fls = s.fls) (e4 : s'.stk = s.stk) (e5 : s'.reason = s.reason)
    (hd : ∀ d, d ≠ c → ∀ k, cnt s' d k = cnt s d k) (hc : ∀ k, cnt s' c k = (b'.take 2).count k) : Inv Bs W L i s' := by
  have hlt : c < s.cls.length := (List.getElem?_eq_some_iff.1 hb).1
  have g1 : s'.cls[c]? = some b' := by rw [e1, List.getElem?_set_self hlt]
  have g2 : ∀ d : Nat, d ≠ c → s'.cls[d]? = s.cls[d]? := by intro d hd; rw [e1, List.getElem?_set_ne (Ne.symm hd)]
  refine ⟨by rw [e1, List.length_set]; exact h.len, by rw [e2]; exact h.mlen, h.ile, h.nz, fun d b1 h1 => ?_, fun d hWd => ?_, fun d hWd l => ?_, h.lt, fun l => by rw [e3, e4]; exact h.fls l, ?_⟩
  · by_cases hdc : d = c
    · subst hdc
      rw [g1] at h1; injection h1 with h1; subst h1
      obtain ⟨b0, k1, k2⟩ := h.perm d b hb
      exact ⟨b0, k1, hp.trans k2⟩
    · rw [g2 d hdc] at h1; exact h.perm d b1 h1
  · by_cases hdc : d = c
    · subst hdc; exact ⟨b', g1, hl, hc⟩
    · obtain ⟨b1, k1, k2, k3⟩ := h.on d hWd
      exact ⟨b1, by rw [g2 d hdc]; exact k1, k2, fun l => by rw [hd d hdc]; exact k3 l⟩
  · have hdc : d ≠ c := fun e => hWd (e ▸ hW)
    rw [hd d hdc]; exact h.off d hWd l
  · rw [e4, e5]
    refine h.just.congr (fun _ _ => rfl) (fun l hl d zs h1 h2 => ?_) (fun l hl h0 => ?_)
    · have hdc : d ≠ c := fun e => hr l hl (e ▸ h1)
      rcases h.just.mem hl with ⟨h0, _⟩ | ⟨c', zs', k1, k2, _⟩
      · omega
      · have : c' = d := by omega
        subst this
        exact ⟨k2, by rw [g2 c' hdc]; exact h2⟩
    · rcases h.just.mem hl with ⟨_, h1⟩ | ⟨c', zs', k1, _⟩
      · exact h1
      · omega

theorem natAbs_ne {l h : Int} (h1 : l ≠ h) (h2 : l ≠ -h) : l.natAbs ≠ h.natAbs := by
  intro e
  rcases Int.natAbs_eq_natAbs_iff.1 e with e | e
  · exact h1 e
  · exact h2 e

/-- a literal with a reason is assigned -/
theorem Inv.push {s s' : D} (h : Inv Bs W L i s) {c : Nat} {x : Int} {zs : List Int} (hc : c < i) (hb : s.cls[c]? = some (x :: zs)) (hz : ∀ z ∈ zs, z ∈ s.stk) (h1 : x ∉ s.stk) (h2 : -x ∉ s.stk)
    (e : s' = { s.assign x with reason := upd s.reason x.natAbs (c + 1) }) : Inv Bs W L i s' := by
  subst e
  have hn : ∀ l ∈ s.stk, upd s.reason x.natAbs (c + 1) l.natAbs = s.reason l.natAbs := by
    intro l hl
    exact upd_ne _ _ (natAbs_ne (fun e => h1 (e ▸ hl)) (fun e => h2 (e ▸ hl)))
  refine ⟨h.len, h.mlen, h.ile, h.nz, h.perm, h.on, h.off, h.lt, fun l => ?_, ?_, ?_⟩
  · show upd s.fls (-x) 1 l ≠ 0 ↔ l ∈ -x :: s.stk
    by_cases hl : l = -x
    · subst hl; rw [upd_self]; simp
    · rw [upd_ne _ _ hl, h.fls l]; simp [hl]
  · right
    refine ⟨c, zs, ?_, hc, by rw [Int.neg_neg]; exact hb, hz, h2, by rw [Int.neg_neg]; exact h1⟩
    rw [Int.natAbs_neg]; exact upd_self _ _ _
  · refine h.just.congr hn (fun l hl d zs' k1 k2 => ?_) (fun l hl h0 => ?_)
    · rcases h.just.mem hl with ⟨h0, _⟩ | ⟨c', zs', m1, m2, _⟩
      · omega
      · have : c' = d := by omega
        subst this; exact ⟨m2, k2⟩
    · rcases h.just.mem hl with ⟨_, h1⟩ | ⟨c', zs', k1, _⟩
      · exact h1
      · omega

theorem Ext.push {s s' : D} {c : Nat} {x : Int} (hW : W c) (h1 : x ∉ s.stk) (h2 : -x ∉ s.stk)
    (e : s' = { s.assign x with reason := upd s.reason x.natAbs (c + 1) }) : Ext W s s' := by
  subst e
  refine ⟨⟨[-x], rfl, fun l hl hm => h2 (by rw [← List.mem_singleton.1 hm]; exact hl)⟩, fun l hl => ?_, fun v d hv => ?_, fun hf v hv => ?_, fun _ _ => rfl, rfl, rfl⟩
  · exact upd_ne _ _ (natAbs_ne (fun e => h1 (e ▸ hl)) (fun e => h2 (e ▸ hl)))
  · have hv : upd s.reason x.natAbs (c + 1) v = d + 1 := hv
    by_cases he : v = x.natAbs
    · subst he; rw [upd_self] at hv
      have : c = d := by omega
      subst this; exact .inr hW
    · rw [upd_ne _ _ he] at hv; exact .inl hv
  · by_cases he : v = x.natAbs
    · exact ⟨-x, List.mem_cons_self, by rw [Int.natAbs_neg]; exact he.symm⟩
    · have hv : upd s.reason x.natAbs (c + 1) v ≠ 0 := hv
      rw [upd_ne _ _ he] at hv
      obtain ⟨l, hl, hl2⟩ := hf v hv
      exact ⟨l, List.mem_cons_of_mem _ hl, hl2⟩

theorem analyze_ok {s s' : D} (h : Inv Bs W L i s) {c : Nat} {b : List Int} (hc : c < i) (hb : s.cls[c]? = some b) (hl : 2 ≤ b.length) (hall : ∀ l ∈ b, l ∈ s.stk)
    (ha : s.analyze c = some s') : Conf Bs W L i s s' := by
  unfold D.analyze at ha
  have hg : s.cls.getD c [] = b := by rw [List.getD_eq_getElem?_getD, hb]; rfl
  rw [hg] at ha
  split at ha
  · cases ha
  · rename_i s1 h1
    obtain ⟨s2, h2, rfl⟩ := Option.map_eq_some_iff.1 ha
    obtain ⟨w, e, hcnt⟩ := markClause_eq hb (.inl hl) h1
    have em : s1.mkd = s.mkd.set c true := by rw [e]
    have ef : s1.fls = fun k => if k ∈ b then 3 else s.fls k := by rw [e]
    have ec : s1.cls = s.cls := by rw [e]
    have er : s1.reason = s.reason := by rw [e]
    have es : s1.stk = s.stk := by rw [e]
    have eo : s1.forced = s.forced := by rw [e]
    have hcm : ∀ d < i, d < s.mkd.length := by intro d hd; rw [h.mlen]; exact Nat.lt_of_lt_of_le hd h.ile
    have A := analyzeGo_ok (L := L) (i := i) (s := s1) (by rw [ec, er, es]; exact h.just) (by rw [em, List.length_set]; exact hcm) (by rw [ec]; exact h.nz') h2
    have hset : ∀ d : Nat, (s.mkd.set c true)[d]? = some true ↔ s.mkd[d]? = some true ∨ d = c := by
      intro d
      rw [List.getElem?_set]
      split
      · rename_i hcd; subst hcd
        rw [if_pos (hcm c hc)]; simp
      · rename_i hcd
        exact ⟨.inl, fun h => h.resolve_right fun e => hcd e.symm⟩
    have hstk : s2.stk.drop (s2.stk.length - s2.forced) = kept s.forced s.stk := by
      rw [A.stk, A.forced, es, eo]; rfl
    have hcl : s2.cls = s.cls := A.cls.trans ec
    have hre : s2.reason = s.reason := A.reason.trans er
    refine ⟨⟨?_, ?_, h.ile, h.nz, ?_, ?_, ?_, h.lt, ?_, ?_⟩, hstk, fun l _ => ?_, fun v d hv => ?_, fun d _ => ?_, A.forced.trans eo, A.forced.trans eo, fun d hd => ?_, fun d hd => ?_, fun v hv => ?_⟩
    · show s2.cls.length = _; rw [hcl]; exact h.len
    · show s2.mkd.length = _; rw [A.mlen, em, List.length_set]; exact h.mlen
    · intro d b1 hd; have hd : s2.cls[d]? = some b1 := hd; rw [hcl] at hd; exact h.perm d b1 hd
    · intro d hd
      obtain ⟨b1, k1, k2, k3⟩ := h.on d hd
      refine ⟨b1, ?_, k2, fun l => ?_⟩
      · show s2.cls[d]? = _; rw [hcl]; exact k1
      · show cnt s2 d l = _; rw [A.cnt, hcnt]; exact k3 l
    · intro d hd l
      show cnt s2 d l = _; rw [A.cnt, hcnt]; exact h.off d hd l
    · intro l
      show s2.fls l ≠ 0 ↔ l ∈ s2.stk.drop _
      rw [hstk]
      constructor
      · intro hl
        rcases A.fls1 l hl with h3 | ⟨h3, h4⟩
        · rw [eo, es] at h3; exact h3
        · rw [es] at h4
          rw [ef] at h3
          dsimp only at h3
          split at h3
          · rename_i hm; exact absurd (hall l hm) h4
          · exact absurd ((h.fls l).1 h3) h4
      · intro hl
        exact A.fls2 l (by rw [eo, es]; exact hl)
    · show Just s2.cls s2.reason L i (s2.stk.drop _)
      rw [hstk, hcl, hre]
      have := h.just
      rw [← List.take_append_drop (s.stk.length - s.forced) s.stk] at this
      exact this.drop
    · show s2.reason _ = _; rw [hre]
    · have hv : s2.reason v = d + 1 := hv
      rw [hre] at hv; exact .inl hv
    · show s2.cls[d]? = _; rw [hcl]
    · exact A.mono d (by rw [em]; exact (hset d).2 (.inl hd))
    · have both : ∀ t, t ≠ 0 → t ∈ s.stk → -t ∈ s.stk → s.reason t.natAbs = 0 := fun t h0 h1 h2 => h.just.both h1 h2 h0
      have blk : ∀ b1, s.cls[d]? = some b1 → (∀ t ∈ b1, t ∈ s.stk ∨ s.reason t.natAbs = d + 1) → ¬ Blk Bs s d := by
        rintro b1 hb1 hq ⟨b0, t, k1, k2, k3, k4, k5⟩
        obtain ⟨b0', m1, m2⟩ := h.perm d b1 hb1
        rw [k1] at m1; injection m1 with m1; subst m1
        have ht : t ∈ b1 := m2.mem_iff.2 k2
        rcases hq t ht with hq | hq
        · exact k4 (both t (h.nz _ (List.mem_of_getElem? k1) _ k2) hq k3)
        · exact k5 hq
      rcases A.new d hd with h3 | ⟨l, hl1, hl2⟩
      · rw [em] at h3
        rcases (hset d).1 h3 with h3 | rfl
        · exact .inl h3
        · exact .inr ⟨hc, blk b hb fun t ht => .inl (hall t ht)⟩
      · rw [es] at hl1
        rw [er] at hl2
        rcases h.just.mem hl1 with ⟨h0, _⟩ | ⟨c', zs, m1, m2, m3, m4⟩
        · omega
        · have : c' = d := by omega
          subst this
          refine .inr ⟨m2, blk _ m3 fun t ht => ?_⟩
          rcases List.mem_cons.1 ht with rfl | ht
          · right; rw [Int.natAbs_neg]; exact m1
          · exact .inl (m4 t ht)
    · have hv : AllTr Bs s2.mkd i v := hv
      have hv' : ∀ d < i, s2.mkd[d]? = some true → ∀ b1, s1.cls[d]? = some b1 → Tr v b1 := by
        intro d hd hm b1 hb1
        rw [ec] at hb1
        obtain ⟨b0, k1, k2⟩ := h.perm d b1 hb1
        obtain ⟨l, hl1, hl2⟩ := hv d hd hm b0 k1
        exact ⟨l, k2.mem_iff.2 hl1, hl2⟩
      apply Classical.byContradiction
      intro hno
      have hL : ∀ l ∈ L, val v l = false := by
        intro l hl
        cases hval : val v l
        · rfl
        · exact absurd ⟨l, hl, hval⟩ hno
      have S := A.sem v hv' hL
      obtain ⟨l, hl1, hl2⟩ := hv' c hc (A.mono c (by rw [em]; exact (hset c).2 (.inr rfl))) b (by rw [ec]; exact hb)
      have := S l (by rw [es]; exact hall l hl1) (by rw [ef]; exact if_pos hl1)
      rw [this] at hl2; cases hl2

end

end Verif.Drup
