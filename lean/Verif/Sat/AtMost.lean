import Verif.Sat.State
/-!
# At-most clauses are added
-/
namespace Verif.Sat

/-- if no literal is negative, the loop keeps the unassigned literals and counts the true ones -/
theorem amLoop_eq {s : S} : ∀ (qs : List Nat) (p : Option Nat) (acc : List Nat) (k : Int), (∀ q ∈ qs, q % 2 = 0) → (∀ a, p = some a → a % 2 = 0) →
    amLoop s qs p acc k = (acc ++ qs.filter (fun q => s.value q == none), k - (qs.filter fun q => s.value q == some true).length)
  | [], p, acc, k, _, _ => by simp [amLoop]
  | q :: qs, p, acc, k, hq, hp => by
    have hq0 := hq q List.mem_cons_self
    have hq' : ∀ x ∈ qs, x % 2 = 0 := fun x hx => hq x (List.mem_cons_of_mem _ hx)
    have hpn : p ≠ some (neg q) := by
      intro e
      have := hp _ e
      rw [neg_mod] at this
      omega
    unfold amLoop
    rw [if_neg hpn]
    cases hv : s.value q with
    | none =>
      rw [if_neg (by simp), if_pos (by simp), amLoop_eq qs (some q) (acc ++ [q]) k hq' (fun a e => by cases e; exact hq0)]
      simp [List.filter_cons, hv]
    | some b =>
      cases b with
      | true =>
        rw [if_pos rfl, amLoop_eq qs p acc (k - 1) hq' hp]
        simp [List.filter_cons, hv]
        omega
      | false =>
        rw [if_neg (by simp), if_neg (by simp), amLoop_eq qs p acc k hq' hp]
        simp [List.filter_cons, hv]

/-- true and unassigned literals counted -/
theorem count_split {s : S} {u : Nat → Bool} : ∀ (qs : List Nat), (∀ q ∈ qs, s.value q = some true → lv u q = true) → (∀ q ∈ qs, s.value q = some false → lv u q = false) →
    (qs.filter (lv u)).length = (qs.filter fun q => s.value q == some true).length + ((qs.filter fun q => s.value q == none).filter (lv u)).length
  | [], _, _ => rfl
  | q :: qs, h1, h2 => by
    have ih := count_split (u := u) qs (fun x hx => h1 x (List.mem_cons_of_mem _ hx)) (fun x hx => h2 x (List.mem_cons_of_mem _ hx))
    cases hv : s.value q with
    | none =>
      cases hl : lv u q <;> simp [List.filter_cons, hv, hl, ih]
      omega
    | some b =>
      cases b with
      | true => simp [List.filter_cons, hv, h1 q List.mem_cons_self hv, ih]; omega
      | false => simp [List.filter_cons, hv, h2 q List.mem_cons_self hv, ih]

theorem foldl_append_watches (i : Nat) : ∀ (ls : List Nat) (w : Nat → List (Nat × Nat)) (l : Nat), ls.Nodup →
    ls.foldl (fun w l => upd w l (w l ++ [(i, 0)])) w l = if l ∈ ls then w l ++ [(i, 0)] else w l
  | [], w, l, _ => by simp
  | x :: xs, w, l, hn => by
    have hn := List.nodup_cons.1 hn
    rw [List.foldl_cons, foldl_append_watches i xs _ _ hn.2]
    by_cases e : l = x
    · subst e
      rw [upd_same, if_neg hn.1, if_pos List.mem_cons_self]
    · rw [upd_ne _ _ e]
      simp [e]

theorem attachAm_spec {Φ : (Nat → Bool) → Prop} {s : S} {k : Am} (h : PI Φ TT s (fun _ _ => False)) (hd : s.dl = 0) (hn : k.lits.Nodup) (hpos : ∀ x ∈ k.lits, x % 2 = 0)
    (hr : ∀ x ∈ k.lits, x / 2 < s.nVars) (h2 : 2 ≤ k.w.length) (hv : ∀ x ∈ k.w, s.value x = none) (hsem : ∀ u, Φ u → (k.lits.filter (lv u)).length ≤ k.card) :
    PI Φ TT (attachAm { s with ams := s.ams ++ [s.nextId] } k) (fun _ _ => False) := by
  have hnw : k.w.Nodup := (List.nodup_append.1 hn).1
  obtain ⟨W, hWe⟩ : ∃ W : Nat → List (Nat × Nat), W = k.w.foldl (fun w l => upd w l (w l ++ [(s.nextId, 0)])) s.watches := ⟨_, rfl⟩
  have he : attachAm { s with ams := s.ams ++ [s.nextId] } k = { s with ams := s.ams ++ [s.nextId], nextId := s.nextId + 1, am := upd s.am s.nextId (some k), watches := W } := by rw [hWe]; rfl
  rw [he]
  have hWl : ∀ l, W l = if l ∈ k.w then s.watches l ++ [(s.nextId, 0)] else s.watches l := by
    intro l; rw [hWe]; exact foldl_append_watches _ _ _ _ hnw
  have hW : ∀ l e, e ∈ W l ↔ e ∈ s.watches l ∨ (l ∈ k.w ∧ e = (s.nextId, 0)) := by
    intro l e
    rw [hWl]
    split
    · rename_i hl; simp [hl]
    · rename_i hl; simp [hl]
  have hnid : s.am s.nextId = none := h.a.new _ (Nat.le_refl _)
  have hwlt : ∀ l c b, (c, b) ∈ s.watches l → c < s.nextId := by
    intro l c b hb
    cases hk : s.am c with
    | none => exact h.d.idlt c (h.d.wMem l c b hb hk).1
    | some k' => exact h.a.idlt c (h.a.wm l c b k' hb hk).1
  have hamo : ∀ c, c ≠ s.nextId → upd s.am s.nextId (some k) c = s.am c := fun c hc => upd_ne _ _ hc
  have hin : ∀ c, c ∈ s.ams ++ [s.nextId] → ∀ k', upd s.am s.nextId (some k) c = some k' → (c ∈ s.ams ∧ s.am c = some k') ∨ (c = s.nextId ∧ k' = k) := by
    intro c hc k' hk'
    by_cases e : c = s.nextId
    · subst e
      rw [upd_same] at hk'
      cases hk'
      exact Or.inr ⟨rfl, rfl⟩
    · rw [hamo c e] at hk'
      rcases List.mem_append.1 hc with hc | hc
      · exact Or.inl ⟨hc, hk'⟩
      · exact absurd (List.mem_singleton.1 hc) e
  have hlev : ∀ x ∈ s.trail, ¬ 0 < s.level (x / 2) := by
    intro x hx hl
    have := h.t.lev_le hx
    omega
  refine ⟨⟨fun c hc => Nat.lt_succ_of_lt (h.d.idlt c hc), h.d.nodupAtt, h.d.clNodup, h.d.range, ?_, ?_, ?_, h.d.bMem, h.d.bAll, h.d.seen0, ?_⟩,
    ⟨h.t.tval, h.t.trange, h.t.tlev, h.t.tdup, ?_, h.t.tlimS, h.t.tlimLe, h.t.heapAll, h.t.qle⟩, ⟨h.m.db, h.m.imp0, h.m.jcl, h.m.jtr⟩, h.q, ?_,
    ⟨?_, ?_, ?_, ?_, ?_, ?_, ?_, ?_, ?_, ?_, ?_, ?_, ?_, fun _ _ _ _ _ _ _ _ _ _ _ => trivial, ?_, ?_⟩⟩
  · intro l
    show ((W l).map Prod.fst).Nodup
    rw [hWl]
    split
    · rw [List.map_append, List.nodup_append]
      refine ⟨h.d.wNodup l, by simp, fun a ha b hb e => ?_⟩
      obtain ⟨⟨c, b'⟩, hm, e'⟩ := List.mem_map.1 ha
      have := hwlt l c b' hm
      simp at hb e'
      omega
    · exact h.d.wNodup l
  · intro l c b hb hk
    have hb : (c, b) ∈ W l := hb
    have hk : upd s.am s.nextId (some k) c = none := hk
    rcases (hW l _).1 hb with hb | ⟨_, e⟩
    · exact h.d.wMem l c b hb (by rwa [hamo c (by have := hwlt l c b hb; omega)] at hk)
    · cases e
      rw [upd_same] at hk; cases hk
  · intro c hc hrr w hw
    obtain ⟨e, he, h1⟩ := List.mem_map.1 (h.d.wAll c hc hrr w hw)
    exact List.mem_map.2 ⟨e, (hW _ _).2 (Or.inl he), h1⟩
  · intro c hc hrr
    rcases h.d.wOne c hc hrr with h1 | h1
    · exact Or.inl ((hW _ _).2 (Or.inl h1))
    · exact Or.inr ((hW _ _).2 (Or.inl h1))
  · intro l rest hsf hl
    exact absurd hl (hlev l (hsf.subset List.mem_cons_self))
  · intro c hc w hw hp hex
    obtain ⟨y, h1, h3, h4, h5⟩ := h.w c hc w hw hp hex
    exact ⟨y, h1, h3, h4, fun hrr => (hW _ _).2 (Or.inl (h5 hrr))⟩
  · intro c hc
    show c < s.nextId + 1
    rcases List.mem_append.1 hc with hc | hc
    · have := h.a.idlt c hc; omega
    · have := List.mem_singleton.1 hc; omega
  · intro c hc
    have hc : s.nextId + 1 ≤ c := hc
    show upd s.am s.nextId (some k) c = none
    rw [hamo c (by omega)]
    exact h.a.new c (by omega)
  · show (s.ams ++ [s.nextId]).Nodup
    rw [List.nodup_append]
    refine ⟨h.a.nd, by simp, fun a ha b hb e => ?_⟩
    have := h.a.idlt a ha
    have := List.mem_singleton.1 hb
    omega
  · intro c hc
    show upd s.am s.nextId (some k) c ≠ none
    by_cases e : c = s.nextId
    · rw [e, upd_same]; simp
    · rw [hamo c e]
      rcases List.mem_append.1 hc with hc | hc
      · exact h.a.isam c hc
      · exact absurd (List.mem_singleton.1 hc) e
  · intro c hc
    show upd s.am s.nextId (some k) c = none
    have := h.d.idlt c hc
    rw [hamo c (by omega)]
    exact h.a.att c hc
  · intro l c b hb
    show upd s.am s.nextId (some k) c = none
    have := h.d.idlt c (h.d.bMem l c b hb).1
    rw [hamo c (by omega)]
    exact h.a.bin l c b hb
  · intro c hc k' hk'
    rcases hin c hc k' hk' with ⟨h1, h3⟩ | ⟨_, h3⟩
    · exact h.a.nodup c h1 k' h3
    · rw [h3]; exact hn
  · intro c hc k' hk'
    rcases hin c hc k' hk' with ⟨h1, h3⟩ | ⟨_, h3⟩
    · exact h.a.pos c h1 k' h3
    · rw [h3]; exact hpos
  · intro c hc k' hk'
    rcases hin c hc k' hk' with ⟨h1, h3⟩ | ⟨_, h3⟩
    · exact h.a.range c h1 k' h3
    · rw [h3]; exact hr
  · intro c hc k' hk'
    rcases hin c hc k' hk' with ⟨h1, h3⟩ | ⟨_, h3⟩
    · exact h.a.two c h1 k' h3
    · rw [h3]; exact h2
  · intro l c b k' hb hk'
    have hb : (c, b) ∈ W l := hb
    have hk' : upd s.am s.nextId (some k) c = some k' := hk'
    rcases (hW l _).1 hb with hb | ⟨hl, e⟩
    · rw [hamo c (by have := hwlt l c b hb; omega)] at hk'
      obtain ⟨h1, h3⟩ := h.a.wm l c b k' hb hk'
      exact ⟨List.mem_append_left _ h1, h3⟩
    · cases e
      rw [upd_same] at hk'
      cases hk'
      exact ⟨by simp, hl⟩
  · intro c hc k' hk' x hx
    show c ∈ (W x).map Prod.fst
    rcases hin c hc k' hk' with ⟨h1, h3⟩ | ⟨h1, h3⟩
    · obtain ⟨e, he, h4⟩ := List.mem_map.1 (h.a.wa c h1 k' h3 x hx)
      exact List.mem_map.2 ⟨e, (hW _ _).2 (Or.inl he), h4⟩
    · rw [h3] at hx
      exact List.mem_map.2 ⟨(s.nextId, 0), (hW _ _).2 (Or.inr ⟨hx, rfl⟩), h1.symm⟩
  · intro c hc k' hk'
    rcases hin c hc k' hk' with ⟨h1, h3⟩ | ⟨_, h3⟩
    · exact h.a.sem c h1 k' h3
    · rw [h3]; exact hsem
  · intro c hc k' hk' x hx hp hex
    rcases hin c hc k' hk' with ⟨h1, h3⟩ | ⟨_, h3⟩
    · exact h.a.w c h1 k' h3 x hx hp hex
    · exfalso
      rw [h3] at hx
      have hp : x ∈ s.proc := hp
      have := (h.t.tval x).2 (List.mem_of_mem_drop hp)
      rw [hv x hx] at this; cases this
  · intro x hx hl
    exact absurd hl (hlev x hx)

theorem amZero_spec {Φ : (Nat → Bool) → Prop} : ∀ (qs : List Nat) (s : S), PI Φ TT s (fun _ _ => False) → s.dl = 0 → qs.Nodup → (∀ q ∈ qs, q % 2 = 0) → (∀ q ∈ qs, q / 2 < s.nVars) →
    (∀ q ∈ qs, s.value q = none) → (∀ u, Φ u → ∀ q ∈ qs, lv u q = false) →
    PI Φ TT (amZero s qs) (fun _ _ => False) ∧ (amZero s qs).dl = 0 ∧ Evo s (amZero s qs) ∧ (amZero s qs).heap = s.heap ∧ s.trail <:+ (amZero s qs).trail ∧
      (amZero s qs).units = s.units ++ qs.map neg ∧ ∀ q ∈ qs, neg q ∈ (amZero s qs).trail
  | [], s, h, hd, _, _, _, _, _ => ⟨h, hd, Evo.refl _, rfl, List.suffix_refl _, by simp [amZero], by simp⟩
  | q :: qs, s, h, hd, hn, hp, hr, hv, hf => by
    have hn := List.nodup_cons.1 hn
    have hvq : s.value (neg q) = none := by rw [value_neg, hv q List.mem_cons_self]; rfl
    have h1 : PI Φ TT (enqueue s (neg q) none) (fun _ _ => False) :=
      h.enqueue (Or.inl hvq) (by rw [neg_var]; exact hr q List.mem_cons_self) (fun e => by omega) (fun _ u hu => by rw [lv_neg, hf u hu q List.mem_cons_self]; rfl) trivial (fun _ e => by cases e)
    obtain ⟨s1, hs1⟩ : ∃ s1, s1 = { enqueue s (neg q) none with units := s.units ++ [neg q] } := ⟨_, rfl⟩
    have e : amZero s (q :: qs) = amZero s1 qs := by rw [hs1]; rfl
    have hval : ∀ x, s1.value x = (enqueue s (neg q) none).value x := by intro x; rw [hs1]; rfl
    have hp1 : PI Φ TT s1 (fun _ _ => False) := by rw [hs1]; exact h1.irrel rfl
    obtain ⟨i1, i2, i3, i4, i5, i6, i7⟩ := amZero_spec qs s1 hp1 (by rw [hs1]; exact hd) hn.2 (fun x hx => hp x (List.mem_cons_of_mem _ hx))
      (fun x hx => by rw [hs1]; exact hr x (List.mem_cons_of_mem _ hx)) (fun x hx => by
        rw [hval, value_enqueue, neg_neg, if_neg, if_neg]
        · exact hv x (List.mem_cons_of_mem _ hx)
        · rintro rfl; exact hn.1 hx
        · rintro rfl
          have := hp _ (List.mem_cons_of_mem _ hx)
          rw [neg_mod] at this
          have := hp q List.mem_cons_self
          omega) (fun u hu x hx => hf u hu x (List.mem_cons_of_mem _ hx))
    have hev : Evo s s1 := by
      rw [hs1]
      exact ⟨rfl, rfl, rfl, rfl, fun _ _ => .refl _, fun _ hc => Or.inl ⟨hc, .refl _, rfl⟩, List.prefix_append _ _, rfl, fun _ => .refl _⟩
    have ht : s1.trail = neg q :: s.trail := by rw [hs1]; rfl
    rw [e]
    refine ⟨i1, i2, hev.trans i3, by rw [i4, hs1]; rfl, (by rw [ht] at i5; exact (List.suffix_cons _ _).trans i5), by rw [i6, hs1]; simp, fun x hx => ?_⟩
    rcases List.mem_cons.1 hx with rfl | hx
    · rw [ht] at i5
      exact i5.subset List.mem_cons_self
    · exact i7 x hx

/-- adding an at-most constraint over different variables -/
theorem addAtMost_spec {Φ : (Nat → Bool) → Prop} {s s' : S} {fuel : Nat} {ps : List Nat} {rhs : Int} (h : RS Φ s) (hn : ps.Nodup) (hpos : ∀ l ∈ ps, l % 2 = 0) (hr : ∀ l ∈ ps, l / 2 < s.nVars)
    (he : addAtMost fuel s ps rhs = some s') : RS (fun u => Φ u ∧ ((ps.filter (lv u)).length : Int) ≤ rhs) s' ∧ Ext s s' ∧ s'.nVars = s.nVars := by
  unfold addAtMost at he
  by_cases hok : s.ok = false
  · rw [if_pos hok] at he
    cases he
    refine ⟨⟨h.dl0, ?_, h.hr, fun e => ?_, fun _ u hu => h.dead hok u hu.1⟩, Ext.refl _, rfl⟩
    · obtain ⟨ex, hp⟩ := h.pi
      exact ⟨ex, hp.weaken fun u hu => hu.1⟩
    · rw [hok] at e; cases e
  rw [if_neg hok] at he
  have hok : s.ok = true := by simpa using hok
  obtain ⟨r1, r2, r3, r4⟩ := h.run hok
  have hperm : (ps.insertionSort (· ≤ ·)).Perm ps := List.perm_insertionSort _ _
  rw [amLoop_eq (ps.insertionSort (· ≤ ·)) none [] rhs (fun q hq => hpos q (hperm.mem_iff.1 hq)) (fun _ e => by cases e)] at he
  dsimp only at he
  rw [List.nil_append] at he
  obtain ⟨qs, hqs⟩ : ∃ qs, qs = (ps.insertionSort (· ≤ ·)).filter (fun q => s.value q == none) := ⟨_, rfl⟩
  obtain ⟨k, hk⟩ : ∃ k : Int, k = rhs - ((ps.insertionSort (· ≤ ·)).filter fun q => s.value q == some true).length := ⟨_, rfl⟩
  rw [← hqs, ← hk] at he
  have hq : ∀ q ∈ qs, q ∈ ps ∧ s.value q = none := by
    intro q hq
    rw [hqs] at hq
    obtain ⟨q1, q2⟩ := List.mem_filter.1 hq
    exact ⟨hperm.mem_iff.1 q1, eq_of_beq q2⟩
  have hqn : qs.Nodup := by rw [hqs]; exact ((hperm.nodup_iff).2 hn).filter _
  have himp : ∀ u, Φ u → (((ps.filter (lv u)).length : Int) ≤ rhs ↔ ((qs.filter (lv u)).length : Int) ≤ k) := by
    intro u hu
    have h1 := count_split (s := s) (u := u) (ps.insertionSort (· ≤ ·)) (fun q _ hv => by
        have hm := (r1.t.tval q).1 hv
        exact r1.m.imp0 _ hm (h.lev hm) u hu) (fun q _ hv => by
        have hm := (r1.t.false_iff q).1 hv
        have := r1.m.imp0 _ hm (h.lev hm) u hu
        rw [lv_neg] at this
        simpa using this)
    rw [← hqs] at h1
    have h2 := (hperm.filter (lv u)).length_eq
    rw [hk]
    omega
  by_cases c1 : k ≥ qs.length
  · rw [if_pos c1] at he
    cases he
    have hall : ∀ u, Φ u → ((ps.filter (lv u)).length : Int) ≤ rhs := by
      intro u hu
      rw [himp u hu]
      have := List.length_filter_le (lv u) qs
      omega
    refine ⟨⟨h.dl0, ⟨_, r1.weaken fun u hu => hu.1⟩, h.hr, fun _ => ⟨r1.weaken fun u hu => hu.1, r2, r3, fun u hu => ⟨r4 u hu, hall u (r4 u hu)⟩⟩, fun e => ?_⟩, Ext.refl _, rfl⟩
    rw [hok] at e; cases e
  rw [if_neg c1] at he
  by_cases c2 : k < 0
  · rw [if_pos c2] at he
    cases he
    refine ⟨⟨h.dl0, ⟨_, (r1.weaken fun u hu => hu.1).irrel rfl⟩, h.hr, fun e => (by cases e), fun _ u hu => ?_⟩,
      ⟨Nat.le_refl _, List.prefix_refl _, rfl, rfl, fun _ _ => .refl _, fun _ hc => Or.inl ⟨hc, .refl _, rfl⟩, List.prefix_refl _, List.prefix_refl _, fun _ _ => .refl _⟩, rfl⟩
    have := (himp u hu.1).1 hu.2
    omega
  rw [if_neg c2] at he
  by_cases c3 : k = 0
  · rw [if_pos c3] at he
    have hz : ∀ u, (Φ u ∧ ((ps.filter (lv u)).length : Int) ≤ rhs) → ∀ q ∈ qs, lv u q = false := by
      intro u hu q hqm
      have h1 := (himp u hu.1).1 hu.2
      have h2 : (qs.filter (lv u)).length = 0 := by omega
      have h3 := List.filter_eq_nil_iff.1 (List.length_eq_zero_iff.1 h2) q hqm
      simpa using h3
    obtain ⟨i1, i2, i3, i4, i5, i6, i7⟩ := amZero_spec qs s (r1.weaken (Ψ := fun u => Φ u ∧ ((ps.filter (lv u)).length : Int) ≤ rhs) fun u hu => hu.1) h.dl0 hqn
      (fun q hqm => hpos q (hq q hqm).1) (fun q hqm => hr q (hq q hqm).1) (fun q hqm => (hq q hqm).2) hz
    generalize amZero s qs = s0 at *
    cases hp : propagate fuel s0 with
    | none => rw [hp] at he; cases he
    | some x =>
      obtain ⟨s1, r⟩ := x
      rw [hp] at he
      cases he
      obtain ⟨f, hp1⟩ := propagate_spec fuel _ s1 r i1 hp
      have hsub : ∀ x ∈ s1.units, x ∈ s1.trail := by
        intro x hx
        rw [f.units, i6] at hx
        apply f.trail.subset
        rcases List.mem_append.1 hx with hx | hx
        · exact i5.subset (r3 x hx)
        · obtain ⟨q, hqm, rfl⟩ := List.mem_map.1 hx
          exact i7 q hqm
      have hdl : s1.dl = 0 := by
        have : s1.trailLim = s0.trailLim := f.trailLim
        unfold S.dl; rw [this]; exact i2
      have hev := (i3.trans f.evo).ext
      have hext : Ext s { s1 with ok := r.isNone } := ⟨hev.nVars, hev.clauses, hev.stateId, hev.valid, hev.old, hev.lr, hev.units, hev.ams, hev.am⟩
      have hnv : s1.nVars = s.nVars := by rw [f.nVars, i3.nVars]
      have hheap : ∀ v ∈ s1.heap, v < s1.nVars := by
        rw [f.heap, f.nVars, i4, i3.nVars]; exact h.hr
      cases r with
      | none =>
        refine ⟨⟨hdl, ⟨_, hp1.1.irrel rfl⟩, hheap, fun _ => ⟨hp1.1.irrel rfl, hp1.2, hsub, fun u hu => ?_⟩, fun e => (by cases e)⟩, hext, hnv⟩
        have hΦ := r4 u (hext.holds hu)
        refine ⟨hΦ, (himp u hΦ).2 ?_⟩
        have : qs.filter (lv u) = [] := by
          rw [List.filter_eq_nil_iff]
          intro q hqm
          have := hu.2.1 (neg q) (by
            show neg q ∈ s1.units
            rw [f.units, i6]
            exact List.mem_append_right _ (List.mem_map_of_mem hqm))
          rw [lv_neg] at this
          simpa using this
        rw [this, c3]; simp
      | some c =>
        exact ⟨⟨hdl, ⟨_, hp1.pi.irrel rfl⟩, hheap, fun e => (by cases e), fun _ => hp1.unsat hdl⟩, hext, hnv⟩
  rw [if_neg c3] at he
  injection he with he
  obtain ⟨n, hnn⟩ : ∃ n, n = qs.length - k.toNat + 1 := ⟨_, rfl⟩
  rw [← hnn] at he
  have hkn : (k.toNat : Int) = k := Int.toNat_of_nonneg (by omega)
  have hn1 : 2 ≤ n ∧ n ≤ qs.length ∧ qs.length - n + 1 = k.toNat := by omega
  have hlits : Am.lits ⟨qs.take n, qs.drop n⟩ = qs := List.take_append_drop _ _
  have hcard : Am.card ⟨qs.take n, qs.drop n⟩ = k.toNat := by
    show (qs.drop n).length + 1 = _
    rw [List.length_drop]; exact hn1.2.2
  have hp2 := attachAm_spec (k := ⟨qs.take n, qs.drop n⟩) (r1.weaken (Ψ := fun u => Φ u ∧ ((ps.filter (lv u)).length : Int) ≤ rhs) fun u hu => hu.1) h.dl0
    (by rw [hlits]; exact hqn) (by rw [hlits]; exact fun q hqm => hpos q (hq q hqm).1) (by rw [hlits]; exact fun q hqm => hr q (hq q hqm).1)
    (by show 2 ≤ (qs.take n).length; rw [List.length_take]; omega) (fun x hx => (hq x (List.mem_of_mem_take hx)).2) (fun u hu => by
      rw [hlits, hcard]
      have := (himp u hu.1).1 hu.2
      omega)
  rw [he] at hp2
  have hext : Ext s s' := by
    rw [← he]
    refine ⟨Nat.le_refl _, List.prefix_refl _, rfl, rfl, fun _ _ => .refl _, fun _ hc => Or.inl ⟨hc, .refl _, rfl⟩, List.prefix_refl _, List.prefix_append _ _, fun c hc => ?_⟩
    have : upd s.am s.nextId (some ⟨qs.take n, qs.drop n⟩) c = s.am c := upd_ne _ _ (by have := r1.a.idlt c hc; omega)
    show AmSim (s.am c) (upd s.am s.nextId (some ⟨qs.take n, qs.drop n⟩) c)
    rw [this]; exact .refl _
  refine ⟨⟨by rw [← he]; exact h.dl0, ⟨_, hp2⟩, by rw [← he]; exact h.hr, fun _ => ⟨hp2, by rw [← he]; exact r2, by rw [← he]; exact r3, fun u hu => ?_⟩, fun e => ?_⟩, hext, by rw [← he]; rfl⟩
  · have hΦ := r4 u (hext.holds hu)
    refine ⟨hΦ, (himp u hΦ).2 ?_⟩
    have h3 := hu.2.2 s.nextId (by rw [← he]; show s.nextId ∈ s.ams ++ [s.nextId]; simp) ⟨qs.take n, qs.drop n⟩ (by rw [← he]; exact upd_same _ _ _)
    rw [hlits, hcard] at h3
    omega
  · rw [← he] at e
    have e : s.ok = false := e
    rw [hok] at e; cases e

end Verif.Sat
