import Verif.Sat.Inv
import Mathlib.Data.List.Nodup
/-!
# Conflict analysis
-/
namespace Verif.Sat

/-! ## the trail -/

theorem Tr.same_var {s : S} (h : Tr s) {x y : Nat} (hx : x ∈ s.trail) (hy : y ∈ s.trail) (e : x / 2 = y / 2) : x = y := by
  rcases var_eq e with e | e
  · exact e
  · subst e; exact absurd hx (h.not_both hy)

/-- levels do not grow down the trail -/
theorem Tr.lev_mono {s : S} (h : Tr s) {x y : Nat} {r1 : List Nat} (hx : (x :: r1) <:+ s.trail) (hy : y ∈ r1) : s.level (y / 2) ≤ s.level (x / 2) := by
  obtain ⟨r2, h2⟩ := mem_suffix hy
  have h3 : (y :: r2) <:+ s.trail := (h2.trans (List.suffix_cons _ _)).trans hx
  rw [h.tlev x r1 hx, h.tlev y r2 h3]
  have hl := h2.length_le
  rw [← List.countP_eq_length_filter, ← List.countP_eq_length_filter]
  apply List.countP_mono_left
  intro z _ hz
  simp only [List.length_cons, decide_eq_true_eq] at hl hz ⊢
  omega

/-- below a decision the levels are smaller -/
theorem Tr.lev_lt {s : S} (h : Tr s) {x y : Nat} {r1 : List Nat} (hx : (x :: r1) <:+ s.trail) (hd : r1.length ∈ s.trailLim) (hy : y ∈ r1) :
    s.level (y / 2) < s.level (x / 2) := by
  obtain ⟨r2, h2⟩ := mem_suffix hy
  have h3 : (y :: r2) <:+ s.trail := (h2.trans (List.suffix_cons _ _)).trans hx
  rw [h.tlev x r1 hx, h.tlev y r2 h3]
  have hl := h2.length_le
  simp only [List.length_cons] at hl
  obtain ⟨a, b, e⟩ := List.append_of_mem hd
  rw [e]
  simp only [← List.countP_eq_length_filter, List.countP_append, List.countP_cons, decide_eq_true_eq]
  have m1 : List.countP (fun z => decide (z ≤ r2.length)) a ≤ List.countP (fun z => decide (z ≤ r1.length)) a :=
    List.countP_mono_left fun z _ hz => by simp only [decide_eq_true_eq] at hz ⊢; omega
  have m2 : List.countP (fun z => decide (z ≤ r2.length)) b ≤ List.countP (fun z => decide (z ≤ r1.length)) b :=
    List.countP_mono_left fun z _ hz => by simp only [decide_eq_true_eq] at hz ⊢; omega
  rw [if_neg (by omega), if_pos (Nat.le_refl _)]
  omega

/-- the literals of a reason but the implied one -/
theorem Tr.tail_spec {s : S} (h : Tr s) {t c : Nat} {rest : List Nat} (hn : (s.cls c).lits.Nodup) (ht : (t :: rest) <:+ s.trail) (ham : s.am c = none) (hr : ReasonOk s (some c) t rest) :
    (∀ q ∈ tailOf s c, neg q ∈ rest ∧ q ∈ (s.cls c).lits) ∧ ∀ q ∈ (s.cls c).lits, q = t ∨ q ∈ tailOf s c := by
  obtain ⟨h1, h2, h3, h4⟩ := hr.1 ham
  have hsub : ∀ x ∈ rest, x ∈ s.trail := fun x hx => ht.subset (List.mem_cons_of_mem _ hx)
  have htt : t ∈ s.trail := ht.subset List.mem_cons_self
  have hab : (s.cls c).a ≠ (s.cls c).b ∧ (s.cls c).a ∉ (s.cls c).rest := by
    simp only [Cls.lits, List.nodup_cons, List.mem_cons, not_or] at hn
    exact hn.1
  unfold tailOf
  rw [ham]
  dsimp only
  by_cases hrest : (s.cls c).rest = []
  · have hl : (s.cls c).lits = [(s.cls c).a, (s.cls c).b] := by simp [Cls.lits, hrest]
    by_cases hv : s.value (s.cls c).a = some false
    · rw [if_pos ⟨hrest, hv⟩]
      have hta : (s.cls c).a ≠ t := by
        rintro rfl
        rw [(h.tval _).2 htt] at hv; cases hv
      have htb : (s.cls c).b = t := by
        rw [hl] at h2; simp only [List.mem_cons, List.not_mem_nil, or_false] at h2
        rcases h2 with h2 | h2
        · exact absurd h2.symm hta
        · exact h2.symm
      refine ⟨fun q hq => ?_, fun q hq => ?_⟩
      · rw [List.mem_singleton] at hq; subst hq
        exact ⟨h4 _ (by rw [hl]; simp) hta, by rw [hl]; simp⟩
      · rw [hl] at hq; simp only [List.mem_cons, List.not_mem_nil, or_false] at hq ⊢
        rcases hq with hq | hq
        · exact Or.inr hq
        · exact Or.inl (hq.trans htb)
    · rw [if_neg (fun e => hv e.2), hrest]
      have hta : (s.cls c).a = t := by
        by_contra e
        exact hv ((h.false_iff _).2 (hsub _ (h4 _ (by rw [hl]; simp) e)))
      refine ⟨fun q hq => ?_, fun q hq => ?_⟩
      · rw [List.mem_singleton] at hq; subst hq
        exact ⟨h4 _ (by rw [hl]; simp) (by rw [← hta]; exact fun e => hab.1 e.symm), by rw [hl]; simp⟩
      · rw [hl] at hq; simp only [List.mem_cons, List.not_mem_nil, or_false] at hq ⊢
        rcases hq with hq | hq
        · exact Or.inl (hq.trans hta)
        · exact Or.inr hq
  · rw [if_neg (fun e => hrest e.1)]
    have hta := h3 hrest
    refine ⟨fun q hq => ?_, fun q hq => ?_⟩
    · have hq' : q ∈ (s.cls c).lits := List.mem_cons_of_mem _ hq
      refine ⟨h4 q hq' ?_, hq'⟩
      rw [← hta]
      rintro rfl
      rcases List.mem_cons.1 hq with e | e
      · exact hab.1 e
      · exact hab.2 e
    · rcases List.mem_cons.1 hq with e | e
      · exact Or.inl (e.trans hta)
      · exact Or.inr e

theorem ReasonOk.ord {s : S} {c t : Nat} {rest : List Nat} (h : ReasonOk s (some c) t rest) (ham : s.am c = none) : c ∈ s.att := (h.1 ham).1

theorem amTail_mem {s : S} (h : Tr s) {k : Am} {q : Nat} : q ∈ amTail s k ↔ neg q ∈ k.lits ∧ neg q ∈ s.trail := by
  unfold amTail
  rw [List.mem_map]
  constructor
  · rintro ⟨x, hx, rfl⟩
    obtain ⟨h1, h2⟩ := List.mem_filter.1 hx
    rw [neg_neg]
    exact ⟨h1, (h.tval x).1 (eq_of_beq h2)⟩
  · rintro ⟨h1, h2⟩
    exact ⟨neg q, List.mem_filter.2 ⟨h1, beq_iff_eq.2 ((h.tval _).2 h2)⟩, neg_neg q⟩

/-- the literals a reason stands for became false before -/
theorem Tr.tail_rest {s : S} (h : Tr s) (hdb : Db s) {t c : Nat} {rest : List Nat} (ht : (t :: rest) <:+ s.trail) (hr : ReasonOk s (some c) t rest) : ∀ q ∈ tailOf s c, neg q ∈ rest := by
  cases ham : s.am c with
  | none => exact fun q hq => ((h.tail_spec (hdb.clNodup c (hr.ord ham)) ht ham hr).1 q hq).1
  | some k =>
    intro q hq
    unfold tailOf at hq
    rw [ham] at hq
    obtain ⟨h1, h2⟩ := (amTail_mem h).1 hq
    exact (hr.2 k ham).2.2.2 _ h1 h2

/-- a reason implies its literal -/
theorem Tr.tail_sat {Φ : (Nat → Bool) → Prop} {J : Nat → Prop} {s : S} {ex : Nat → Nat → Prop} {exr : Nat → Prop} (h : Tr s) (hdb : Db s) (hm : Sem Φ J s) (ha : AmI Φ J s ex exr) {t c : Nat} {rest : List Nat}
    (ht : (t :: rest) <:+ s.trail) (hr : ReasonOk s (some c) t rest) {u : Nat → Bool} (hu : Φ u) : Sat u (t :: tailOf s c) := by
  cases ham : s.am c with
  | none =>
    obtain ⟨q, hq, hv⟩ := hm.db c (hr.ord ham) u hu
    rcases (h.tail_spec (hdb.clNodup c (hr.ord ham)) ht ham hr).2 q hq with rfl | hq
    · exact ⟨q, List.mem_cons_self, hv⟩
    · exact ⟨q, List.mem_cons_of_mem _ hq, hv⟩
  | some k =>
    obtain ⟨r1, r2, r3, r4⟩ := hr.2 k ham
    unfold tailOf
    rw [ham]
    dsimp only
    by_contra hn
    have hn' : ∀ q ∈ t :: amTail s k, lv u q = false := by
      intro q hq
      cases hv : lv u q with
      | false => rfl
      | true => exact absurd ⟨q, hq, hv⟩ hn
    have htt : t ∈ s.trail := ht.subset List.mem_cons_self
    have h2 : (neg t :: k.lits.filter fun q => decide (q ∈ rest)).length ≤ k.card := am_too_many (ha.sem c r1 k ham u hu)
      (List.nodup_cons.2 ⟨fun hm => by
        have := (List.mem_filter.1 hm).2
        simp only [decide_eq_true_eq] at this
        exact h.not_both htt (ht.subset (List.mem_cons_of_mem _ this)), (ha.nodup c r1 k ham).filter _⟩) (by
        intro z hz
        rcases List.mem_cons.1 hz with rfl | hz
        · exact ⟨r2, by rw [lv_neg, hn' t List.mem_cons_self]; rfl⟩
        · obtain ⟨z1, z2⟩ := List.mem_filter.1 hz
          simp only [decide_eq_true_eq] at z2
          refine ⟨z1, ?_⟩
          have := hn' (neg z) (List.mem_cons_of_mem _ ((amTail_mem h).2 (by rw [neg_neg]; exact ⟨z1, ht.subset (List.mem_cons_of_mem _ z2)⟩)))
          rw [lv_neg] at this
          simpa using this)
    rw [List.length_cons] at h2
    omega

/-- a conflicting clause is not satisfied by its literals -/
theorem Confl.sat {Φ : (Nat → Bool) → Prop} {J : Nat → Prop} {s : S} {c : Nat} (h : Confl Φ J s c) {u : Nat → Bool} (hu : Φ u) : Sat u (conflLits s c) := by
  rcases h.kind with ⟨ham, hc⟩ | ⟨hc, k, ham, hk⟩
  · rw [conflLits_none ham]
    exact h.pi.m.db c hc u hu
  · rw [conflLits_some ham]
    by_contra hn
    have h2 : (k.lits.filter fun q => decide (q ∈ s.trail)).length ≤ k.card := am_too_many (h.pi.a.sem c hc k ham u hu) ((h.pi.a.nodup c hc k ham).filter _) (by
        intro z hz
        obtain ⟨z1, z2⟩ := List.mem_filter.1 hz
        simp only [decide_eq_true_eq] at z2
        refine ⟨z1, ?_⟩
        cases hv : lv u z with
        | true => rfl
        | false => exact absurd ⟨neg z, (amTail_mem h.pi.t).2 (by rw [neg_neg]; exact ⟨z1, z2⟩), by rw [lv_neg, hv]; rfl⟩ hn)
    omega

/-! ## the loop of `analyze` -/

/-- the remaining trail literals that are counted -/
def cnt (s : S) (tr : List Nat) (seen : Nat → Bool) : Nat := (tr.filter fun t => seen (t / 2) && decide (s.level (t / 2) = s.dl)).length

structure AnI (s : S) (tr : List Nat) (st : An) : Prop where
  pc : st.pathC = cnt s tr st.seen
  sn : ∀ v, st.seen v = true → (∃ q ∈ st.out, q / 2 = v) ∨ ∃ t ∈ tr, t / 2 = v ∧ s.level v = s.dl
  out : ∀ q ∈ st.out, neg q ∈ s.trail ∧ 0 < s.level (q / 2) ∧ s.level (q / 2) < s.dl ∧ st.seen (q / 2) = true
  nd : (st.out.map (· / 2)).Nodup

theorem cnt_upd {s : S} {tr : List Nat} {seen : Nat → Bool} {q : Nat} (hn : (tr.filter fun t => decide (s.level (t / 2) = s.dl)).Nodup)
    (hv : ∀ x ∈ tr, ∀ y ∈ tr, x / 2 = y / 2 → x = y) (hq : neg q ∈ tr) (hs : seen (q / 2) = false) (hl : s.level (q / 2) = s.dl) :
    cnt s tr (upd seen (q / 2) true) = cnt s tr seen + 1 := by
  obtain ⟨a, b, e⟩ := List.append_of_mem hq
  subst e
  unfold cnt
  simp only [List.filter_append, List.length_append, List.filter_cons, neg_var, upd_same, hl, hs]
  have hne : ∀ x, (x ∈ a ∨ x ∈ b) → s.level (x / 2) = s.dl → x / 2 ≠ q / 2 := by
    intro x hx hlx e
    have : x = neg q := hv x (by rcases hx with hx | hx <;> simp [hx]) (neg q) (by simp) (by rw [neg_var]; exact e)
    subst this
    rw [List.filter_append, List.filter_cons, if_pos (by simp [hl])] at hn
    have := (List.perm_middle).nodup_iff.1 hn
    rw [List.nodup_cons] at this
    apply this.1
    rw [List.mem_append, List.mem_filter, List.mem_filter]
    rcases hx with hx | hx
    · exact Or.inl ⟨hx, by simp [hl]⟩
    · exact Or.inr ⟨hx, by simp [hl]⟩
  have h1 : ∀ (m : List Nat), (∀ x ∈ m, x ∈ a ∨ x ∈ b) → m.filter (fun t => upd seen (q / 2) true (t / 2) && decide (s.level (t / 2) = s.dl)) =
      m.filter (fun t => seen (t / 2) && decide (s.level (t / 2) = s.dl)) := by
    intro m hm
    apply List.filter_congr
    intro x hx
    by_cases hlx : s.level (x / 2) = s.dl
    · rw [upd_ne _ _ (hne x (hm x hx) hlx)]
    · simp [hlx]
  rw [h1 a (fun x hx => Or.inl hx), h1 b (fun x hx => Or.inr hx)]
  simp
  omega

/-- the level-`dl` literals of the trail are different from each other -/
theorem Tr.cur_nodup {s : S} (h : Tr s) (hd : 0 < s.dl) : ∀ {tr : List Nat}, tr <:+ s.trail → (tr.filter fun t => decide (s.level (t / 2) = s.dl)).Nodup
  | [], _ => by simp
  | t :: tr, ht => by
    have ih := Tr.cur_nodup h hd (tr := tr) ((List.suffix_cons _ _).trans ht)
    rw [List.filter_cons]
    split
    · rename_i e
      simp only [decide_eq_true_eq] at e
      rw [List.nodup_cons]
      refine ⟨fun hm => ?_, ih⟩
      exact h.tdup t tr ht (by omega) (List.mem_filter.1 hm).1
    · exact ih

theorem AnI.mark {s : S} {tr : List Nat} {st : An} (h : AnI s tr st) (ht : Tr s) (hd : 0 < s.dl) (hsf : tr <:+ s.trail) {q : Nat} (hq : neg q ∈ s.trail)
    (hcur : s.level (q / 2) = s.dl → neg q ∈ tr) :
    AnI s tr (mark s st q) ∧ (∀ v, st.seen v = true → (mark s st q).seen v = true) ∧ (∀ x ∈ st.out, x ∈ (mark s st q).out) ∧
      (s.level (q / 2) ≠ 0 → (mark s st q).seen (q / 2) = true) := by
  have hlev : s.level (q / 2) ≤ s.dl := by have := ht.lev_le hq; rwa [neg_var] at this
  unfold Sat.mark
  by_cases hc : st.seen (q / 2) = false ∧ s.level (q / 2) ≠ 0
  · rw [if_pos hc]
    by_cases hge : s.level (q / 2) ≥ s.dl
    · rw [if_pos hge]
      have hl : s.level (q / 2) = s.dl := by omega
      refine ⟨⟨?_, ?_, ?_, h.nd⟩, ?_, fun _ hx => hx, fun _ => upd_same _ _ _⟩
      · dsimp only
        rw [cnt_upd (ht.cur_nodup hd hsf) (fun x hx y hy => ht.same_var (hsf.subset hx) (hsf.subset hy)) (hcur hl) hc.1 hl, h.pc]
      · intro v hv
        by_cases e : v = q / 2
        · subst e; exact Or.inr ⟨neg q, hcur hl, neg_var q, hl⟩
        · dsimp only at hv; rw [upd_ne _ _ e] at hv; exact h.sn v hv
      · intro x hx
        obtain ⟨h1, h2, h3, h4⟩ := h.out x hx
        refine ⟨h1, h2, h3, ?_⟩
        dsimp only; unfold upd; split
        · rfl
        · exact h4
      · intro v hv; dsimp only; unfold upd; split
        · rfl
        · exact hv
    · rw [if_neg hge]
      have hnl : s.level (q / 2) ≠ s.dl := by omega
      refine ⟨⟨?_, ?_, ?_, ?_⟩, ?_, fun _ hx => by dsimp only; exact List.mem_append_left _ hx, fun _ => upd_same _ _ _⟩
      · dsimp only
        rw [h.pc]
        unfold cnt
        congr 1
        apply List.filter_congr
        intro x _
        by_cases e : x / 2 = q / 2
        · rw [e]; simp [hnl]
        · rw [upd_ne _ _ e]
      · intro v hv
        by_cases e : v = q / 2
        · subst e; exact Or.inl ⟨q, by simp, rfl⟩
        · dsimp only at hv; rw [upd_ne _ _ e] at hv
          rcases h.sn v hv with ⟨x, hx, e⟩ | h
          · exact Or.inl ⟨x, List.mem_append_left _ hx, e⟩
          · exact Or.inr h
      · intro x hx
        rcases List.mem_append.1 hx with hx | hx
        · obtain ⟨h1, h2, h3, h4⟩ := h.out x hx
          refine ⟨h1, h2, h3, ?_⟩
          dsimp only; unfold upd; split
          · rfl
          · exact h4
        · rw [List.mem_singleton] at hx; subst hx
          exact ⟨hq, by omega, by omega, upd_same _ _ _⟩
      · dsimp only
        rw [List.map_append, List.nodup_append]
        refine ⟨h.nd, by simp, ?_⟩
        intro a ha b hb
        simp only [List.map_cons, List.map_nil, List.mem_singleton] at hb
        subst hb
        rintro rfl
        obtain ⟨x, hx, e⟩ := List.mem_map.1 ha
        have := (h.out x hx).2.2.2
        rw [e, hc.1] at this
        cases this
      · intro v hv; dsimp only; unfold upd; split
        · rfl
        · exact hv
  · rw [if_neg hc]
    refine ⟨h, fun _ hv => hv, fun _ hx => hx, fun hl => ?_⟩
    cases hs : st.seen (q / 2) with
    | true => rfl
    | false => exact absurd ⟨hs, hl⟩ hc

theorem AnI.marks {s : S} {tr : List Nat} (ht : Tr s) (hd : 0 < s.dl) (hsf : tr <:+ s.trail) : ∀ (qs : List Nat) {st : An}, AnI s tr st →
    (∀ q ∈ qs, neg q ∈ s.trail) → (∀ q ∈ qs, s.level (q / 2) = s.dl → neg q ∈ tr) →
    AnI s tr (qs.foldl (Sat.mark s) st) ∧ (∀ v, st.seen v = true → (qs.foldl (Sat.mark s) st).seen v = true) ∧ (∀ x ∈ st.out, x ∈ (qs.foldl (Sat.mark s) st).out) ∧
      ∀ q ∈ qs, s.level (q / 2) ≠ 0 → (qs.foldl (Sat.mark s) st).seen (q / 2) = true
  | [], st, h, _, _ => ⟨h, fun _ hv => hv, fun _ hx => hx, by simp⟩
  | q :: qs, st, h, h1, h2 => by
    obtain ⟨a1, a2, a3, a4⟩ := h.mark ht hd hsf (h1 q List.mem_cons_self) (h2 q List.mem_cons_self)
    obtain ⟨b1, b2, b3, b4⟩ := AnI.marks ht hd hsf qs a1 (fun x hx => h1 x (List.mem_cons_of_mem _ hx)) (fun x hx => h2 x (List.mem_cons_of_mem _ hx))
    refine ⟨b1, fun v hv => b2 v (a2 v hv), fun x hx => b3 x (a3 x hx), fun x hx hl => ?_⟩
    rcases List.mem_cons.1 hx with rfl | hx
    · exact b2 _ (a4 hl)
    · exact b4 x hx hl

/-- the clause that stands for the working state -/
def AnImp (Φ : (Nat → Bool) → Prop) (s : S) (tr : List Nat) (st : An) : Prop :=
  ∀ u, Φ u → Sat u st.out ∨ ∃ t ∈ tr, st.seen (t / 2) = true ∧ s.level (t / 2) = s.dl ∧ lv u (neg t) = true

/-- a true literal of a clause just marked belongs to the new clause -/
theorem AnI.cover {Φ : (Nat → Bool) → Prop} {J : Nat → Prop} {s : S} {tr : List Nat} {st : An} (h : AnI s tr st) (hm : Sem Φ J s) (ht : Tr s) (hsf : tr <:+ s.trail) {u : Nat → Bool} (hu : Φ u) {q : Nat}
    (hq : neg q ∈ s.trail) (hcur : s.level (q / 2) = s.dl → neg q ∈ tr) (hs : s.level (q / 2) ≠ 0 → st.seen (q / 2) = true) (hv : lv u q = true) :
    Sat u st.out ∨ ∃ t ∈ tr, st.seen (t / 2) = true ∧ s.level (t / 2) = s.dl ∧ lv u (neg t) = true := by
  have h0 : s.level (q / 2) ≠ 0 := by
    intro e
    have := hm.imp0 (neg q) hq (by rw [neg_var]; exact e) u hu
    rw [lv_neg, hv] at this; cases this
  have h1 := hs h0
  by_cases hl : s.level (q / 2) = s.dl
  · exact Or.inr ⟨neg q, hcur hl, by rw [neg_var]; exact h1, by rw [neg_var]; exact hl, by rw [neg_neg]; exact hv⟩
  · rcases h.sn _ h1 with ⟨x, hx, e⟩ | ⟨t, _, _, e⟩
    · have : neg x = neg q := ht.same_var (h.out x hx).1 hq (by rw [neg_var, neg_var]; exact e)
      exact Or.inl ⟨x, hx, by rw [neg_inj this]; exact hv⟩
    · exact absurd e hl

theorem anLoop_spec {Φ : (Nat → Bool) → Prop} {J : Nat → Prop} {s : S} {ex : Nat → Nat → Prop} {exr : Nat → Prop} (hdb : Db s) (hm : Sem Φ J s) (ha : AmI Φ J s ex exr) (ht : Tr s) (hd : 0 < s.dl) : ∀ (tr : List Nat) (st : An) (p : Nat) (st' : An),
    tr <:+ s.trail → AnI s tr st → AnImp Φ s tr st → 0 < st.pathC → anLoop s tr st = some (p, st') →
    p ∈ s.trail ∧ s.level (p / 2) = s.dl ∧ AnI s [] st' ∧ ∀ u, Φ u → Sat u (neg p :: st'.out)
  | [], st, p, st', _, _, _, _, he => by cases he
  | t :: rest, st, p, st', hsf, hi, himp, hpc, he => by
    have hsf' : rest <:+ s.trail := (List.suffix_cons _ _).trans hsf
    have htt : t ∈ s.trail := hsf.subset List.mem_cons_self
    unfold anLoop at he
    by_cases hs : st.seen (t / 2) = false
    · rw [if_pos hs] at he
      refine anLoop_spec hdb hm ha ht hd rest st p st' hsf' ⟨?_, ?_, hi.out, hi.nd⟩ ?_ hpc he
      · rw [hi.pc]; unfold cnt; rw [List.filter_cons, if_neg (by simp [hs])]
      · intro v hv
        rcases hi.sn v hv with h | ⟨x, hx, e1, e2⟩
        · exact Or.inl h
        · rcases List.mem_cons.1 hx with rfl | hx
          · rw [e1, hv] at hs; cases hs
          · exact Or.inr ⟨x, hx, e1, e2⟩
      · intro u hu
        rcases himp u hu with h | ⟨x, hx, h1, h2⟩
        · exact Or.inl h
        · rcases List.mem_cons.1 hx with rfl | hx
          · rw [hs] at h1; cases h1
          · exact Or.inr ⟨x, hx, h1, h2⟩
    rw [if_neg hs] at he
    have hs1 : st.seen (t / 2) = true := by cases h : st.seen (t / 2) with | true => rfl | false => exact absurd h hs
    -- the literal belongs to the current level
    have hlt : s.level (t / 2) = s.dl := by
      rw [hi.pc] at hpc
      unfold cnt at hpc
      obtain ⟨x, hx⟩ := List.exists_mem_of_length_pos hpc
      obtain ⟨hx, hx2⟩ := List.mem_filter.1 hx
      simp only [Bool.and_eq_true, decide_eq_true_eq] at hx2
      rcases List.mem_cons.1 hx with rfl | hx
      · exact hx2.2
      · have h1 := ht.lev_mono hsf hx
        have h2 := ht.lev_le htt
        omega
    have hnr : ∀ x ∈ rest, x / 2 ≠ t / 2 := by
      intro x hx e
      have := ht.same_var (hsf'.subset hx) htt e
      subst this
      exact ht.tdup x rest hsf (by omega) hx
    -- the working state without the literal
    let st1 : An := { st with seen := upd st.seen (t / 2) false, pathC := st.pathC - 1 }
    have hi1 : AnI s rest st1 := by
      refine ⟨?_, ?_, ?_, hi.nd⟩
      · show st.pathC - 1 = cnt s rest (upd st.seen (t / 2) false)
        rw [hi.pc]
        unfold cnt
        rw [List.filter_cons, if_pos (by simp [hs1, hlt])]
        simp only [List.length_cons, Nat.add_sub_cancel]
        congr 1
        apply List.filter_congr
        intro x hx
        rw [upd_ne _ _ (hnr x hx)]
      · intro v hv
        have hne : v ≠ t / 2 := by
          rintro rfl
          have : upd st.seen (t / 2) false (t / 2) = true := hv
          rw [upd_same] at this; cases this
        have hv' : st.seen v = true := by rw [← upd_ne st.seen false hne]; exact hv
        rcases hi.sn v hv' with h | ⟨x, hx, e1, e2⟩
        · exact Or.inl h
        · rcases List.mem_cons.1 hx with rfl | hx
          · exact absurd e1.symm hne
          · exact Or.inr ⟨x, hx, e1, e2⟩
      · intro q hq
        obtain ⟨h1, h2, h3, h4⟩ := hi.out q hq
        refine ⟨h1, h2, h3, ?_⟩
        show upd st.seen (t / 2) false (q / 2) = true
        rw [upd_ne]
        · exact h4
        · intro e; rw [e] at h3; omega
    have himp1 : ∀ u, Φ u → Sat u st1.out ∨ (∃ x ∈ rest, st1.seen (x / 2) = true ∧ s.level (x / 2) = s.dl ∧ lv u (neg x) = true) ∨ lv u (neg t) = true := by
      intro u hu
      rcases himp u hu with h | ⟨x, hx, h1, h2, h3⟩
      · exact Or.inl h
      · rcases List.mem_cons.1 hx with rfl | hx
        · exact Or.inr (Or.inr h3)
        · refine Or.inr (Or.inl ⟨x, hx, ?_, h2, h3⟩)
          show upd st.seen (t / 2) false (x / 2) = true
          rw [upd_ne _ _ (hnr x hx)]; exact h1
    change (if st1.pathC > 0 then _ else _) = _ at he
    by_cases hp : st1.pathC > 0
    · rw [if_pos hp] at he
      have hrs := ht.treason t rest hsf (by omega)
      cases hr : s.reason (t / 2) with
      | none =>
        rw [hr] at he; cases he
      | some c =>
        rw [hr] at he hrs
        dsimp only at he
        have t1 := ht.tail_rest hdb hsf hrs
        obtain ⟨b1, b2, b3, b4⟩ := AnI.marks ht hd hsf' (tailOf s c) hi1 (fun q hq => hsf'.subset (t1 q hq)) (fun q hq _ => t1 q hq)
        refine anLoop_spec hdb hm ha ht hd rest _ p st' hsf' b1 ?_ ?_ he
        · intro u hu
          rcases himp1 u hu with ⟨x, hx, hv⟩ | ⟨x, hx, h1, h2, h3⟩ | hv
          · exact Or.inl ⟨x, b3 x hx, hv⟩
          · exact Or.inr ⟨x, hx, b2 _ h1, h2, h3⟩
          · obtain ⟨q, hq, hqv⟩ := ht.tail_sat hdb hm ha hsf hrs hu
            rcases List.mem_cons.1 hq with rfl | hq
            · rw [lv_neg, hqv] at hv; cases hv
            · exact b1.cover hm ht hsf' hu (hsf'.subset (t1 q hq)) (fun _ => t1 q hq) (b4 q hq) hqv
        · rw [b1.pc]
          rw [hi1.pc] at hp
          unfold cnt at hp ⊢
          obtain ⟨x, hx⟩ := List.exists_mem_of_length_pos hp
          obtain ⟨hx, hx2⟩ := List.mem_filter.1 hx
          simp only [Bool.and_eq_true, decide_eq_true_eq] at hx2
          refine List.length_pos_of_mem (a := x) (List.mem_filter.2 ⟨hx, ?_⟩)
          simp only [Bool.and_eq_true, decide_eq_true_eq]
          exact ⟨b2 _ hx2.1, hx2.2⟩
    · rw [if_neg hp] at he
      cases he
      have h0 : ∀ x ∈ rest, st1.seen (x / 2) = true → s.level (x / 2) = s.dl → False := by
        intro x hx h1 h2
        apply hp
        rw [hi1.pc]
        exact List.length_pos_of_mem (a := x) (List.mem_filter.2 ⟨hx, by simp [h1, h2]⟩)
      refine ⟨htt, hlt, ⟨?_, ?_, hi1.out, hi1.nd⟩, ?_⟩
      · show st1.pathC = cnt s [] st1.seen
        simp only [cnt, List.filter_nil, List.length_nil]
        omega
      · intro v hv
        rcases hi1.sn v hv with h | ⟨x, hx, e1, e2⟩
        · exact Or.inl h
        · exact absurd (e1 ▸ e2) (fun e => h0 x hx (e1 ▸ hv) e)
      · intro u hu
        rcases himp1 u hu with ⟨x, hx, hv⟩ | ⟨x, hx, h1, h2, h3⟩ | hv
        · exact ⟨x, List.mem_cons_of_mem _ hx, hv⟩
        · exact (h0 x hx h1 h2).elim
        · exact ⟨_, List.mem_cons_self, hv⟩

/-! ## minimization -/

/-- the variable has a reason, whose other variables are marked or of level 0 -/
def Closed (s : S) (seen : Nat → Bool) (v : Nat) : Prop :=
  ∃ c, s.reason v = some c ∧ ∀ q ∈ tailOf s c, seen (q / 2) = true ∨ s.level (q / 2) = 0

theorem Closed.mono {s : S} {seen seen' : Nat → Bool} {v : Nat} (h : Closed s seen v) (hm : ∀ v, seen v = true → seen' v = true) : Closed s seen' v := by
  obtain ⟨c, h1, h2⟩ := h
  exact ⟨c, h1, fun q hq => (h2 q hq).imp (hm _) id⟩

/-- a marked literal of the trail holds wherever the kept literals are false -/
theorem marked_true {Φ : (Nat → Bool) → Prop} {J : Nat → Prop} {s : S} {ex : Nat → Nat → Prop} {exr : Nat → Prop} (hdb : Db s) (hm : Sem Φ J s) (ha : AmI Φ J s ex exr) (ht : Tr s) {seen : Nat → Bool} {kept : List Nat} {u : Nat → Bool} (hu : Φ u)
    (hc : ∀ t ∈ s.trail, seen (t / 2) = true → 0 < s.level (t / 2) → neg t ∈ kept ∨ Closed s seen (t / 2)) (hk : ∀ q ∈ kept, lv u q = false) :
    ∀ {tr : List Nat}, tr <:+ s.trail → ∀ t ∈ tr, (seen (t / 2) = true ∨ s.level (t / 2) = 0) → lv u t = true
  | [], _, t, h, _ => by cases h
  | x :: rest, hsf, t, h, hs => by
    have ih := marked_true hdb hm ha ht hu hc hk (tr := rest) ((List.suffix_cons _ _).trans hsf)
    rcases List.mem_cons.1 h with rfl | h
    · have htt : t ∈ s.trail := hsf.subset List.mem_cons_self
      by_cases hl : s.level (t / 2) = 0
      · exact hm.imp0 t htt hl u hu
      · rcases hs with hs | hs
        · rcases hc t htt hs (by omega) with h | ⟨c, h1, h2⟩
          · have := hk _ h
            rw [lv_neg] at this
            simpa using this
          · have hr := ht.treason t rest hsf (by omega)
            rw [h1] at hr
            refine implied_lit (ht.tail_sat hdb hm ha hsf hr hu) fun q hq hne => ?_
            rcases List.mem_cons.1 hq with e | hq
            · exact absurd e hne
            · refine ih (neg q) (ht.tail_rest hdb hsf hr q hq) ?_
              rw [neg_var]; exact h2 q hq
        · exact absurd hs hl
    · exact ih t h hs

theorem min_sound {Φ : (Nat → Bool) → Prop} {J : Nat → Prop} {s : S} {ex : Nat → Nat → Prop} {exr : Nat → Prop} (hdb : Db s) (hm : Sem Φ J s) (ha : AmI Φ J s ex exr) (ht : Tr s) {seen : Nat → Bool} {kept out : List Nat} {l0 : Nat}
    (himp : ∀ u, Φ u → Sat u (l0 :: out)) (hc : ∀ t ∈ s.trail, seen (t / 2) = true → 0 < s.level (t / 2) → neg t ∈ kept ∨ Closed s seen (t / 2))
    (ho : ∀ q ∈ out, neg q ∈ s.trail ∧ seen (q / 2) = true) : ∀ u, Φ u → Sat u (l0 :: kept) := by
  intro u hu
  by_cases hk : ∀ q ∈ kept, lv u q = false
  · obtain ⟨q, hq, hv⟩ := himp u hu
    rcases List.mem_cons.1 hq with rfl | hq
    · exact ⟨q, List.mem_cons_self, hv⟩
    · have := marked_true hdb hm ha ht hu hc hk (List.suffix_refl _) (neg q) (ho q hq).1 (Or.inl (by rw [neg_var]; exact (ho q hq).2))
      rw [lv_neg, hv] at this; cases this
  · simp only [not_forall] at hk
    obtain ⟨q, hq, hv⟩ := hk
    exact ⟨q, List.mem_cons_of_mem _ hq, by simpa using hv⟩

/-- the marks are those from before and those of the literals in `added` -/
structure Marks (s : S) (seen0 seen : Nat → Bool) (added : List Nat) : Prop where
  sn : ∀ v, seen v = true ↔ seen0 v = true ∨ ∃ x ∈ added, x / 2 = v
  new : ∀ x ∈ added, seen0 (x / 2) = false
  ad : ∀ x ∈ added, neg x ∈ s.trail ∧ 0 < s.level (x / 2)

theorem unmark_false (v : Nat) : ∀ (ls : List Nat) (seen : Nat → Bool), (seen v = false ∨ ∃ x ∈ ls, x / 2 = v) → unmark seen ls v = false
  | [], seen, h => by
    rcases h with h | ⟨x, hx, _⟩
    · exact h
    · cases hx
  | y :: ls, seen, h => by
    show unmark (upd seen (y / 2) false) ls v = false
    apply unmark_false v ls
    by_cases e : v = y / 2
    · left; rw [e, upd_same]
    · rw [upd_ne _ _ e]
      rcases h with h | ⟨x, hx, h⟩
      · exact Or.inl h
      · rcases List.mem_cons.1 hx with rfl | hx
        · exact absurd h.symm e
        · exact Or.inr ⟨x, hx, h⟩

theorem unmark_keep (v : Nat) : ∀ (ls : List Nat) (seen : Nat → Bool), (¬ ∃ x ∈ ls, x / 2 = v) → unmark seen ls v = seen v
  | [], seen, _ => rfl
  | y :: ls, seen, h => by
    show unmark (upd seen (y / 2) false) ls v = seen v
    rw [unmark_keep v ls _ fun ⟨x, hx, e⟩ => h ⟨x, List.mem_cons_of_mem _ hx, e⟩, upd_ne]
    intro e; exact h ⟨y, List.mem_cons_self, e.symm⟩

theorem Marks.unmark {s : S} {seen0 seen : Nat → Bool} {added : List Nat} (h : Marks s seen0 seen added) : Sat.unmark seen added = seen0 := by
  funext v
  by_cases e : ∃ x ∈ added, x / 2 = v
  · rw [unmark_false v added seen (Or.inr e)]
    obtain ⟨x, hx, rfl⟩ := e
    exact (h.new x hx).symm
  · rw [unmark_keep v added seen e]
    have := h.sn v
    cases hs : seen v with
    | true => rw [hs] at this; rcases this.1 rfl with h | h; exact h.symm; exact absurd h e
    | false =>
      cases h0 : seen0 v with
      | false => rfl
      | true => rw [this.2 (Or.inl h0)] at hs; cases hs

theorem redLits_spec {s : S} {seen0 : Nat → Bool} (abs : Nat) : ∀ (qs stack : List Nat) (seen : Nat → Bool) (added stack' : List Nat) (seen' : Nat → Bool) (added' : List Nat) (b : Bool),
    (∀ q ∈ qs, neg q ∈ s.trail) → Marks s seen0 seen added → redLits s abs qs (stack, seen, added) = ((stack', seen', added'), b) →
    Marks s seen0 seen' added' ∧ (∀ v, seen v = true → seen' v = true) ∧
    (b = true → (∀ q ∈ qs, seen' (q / 2) = true ∨ s.level (q / 2) = 0) ∧ (∀ x ∈ stack, x ∈ stack') ∧ (∀ x ∈ stack', x ∈ stack ∨ (neg x ∈ s.trail ∧ 0 < s.level (x / 2))) ∧ ∀ x ∈ added', x ∈ added ∨ x ∈ stack')
  | [], stack, seen, added, stack', seen', added', b, _, hm, he => by
    cases he
    exact ⟨hm, fun _ h => h, fun _ => ⟨by simp, fun _ h => h, fun _ h => Or.inl h, fun _ h => Or.inl h⟩⟩
  | q :: qs, stack, seen, added, stack', seen', added', b, hq, hm, he => by
    have hq' : ∀ q ∈ qs, neg q ∈ s.trail := fun x hx => hq x (List.mem_cons_of_mem _ hx)
    unfold redLits at he
    by_cases h1 : seen (q / 2) = false ∧ 0 < s.level (q / 2)
    · rw [if_pos h1] at he
      by_cases h2 : s.reason (q / 2) ≠ none ∧ absLevel s (q / 2) &&& abs ≠ 0
      · rw [if_pos h2] at he
        have hm' : Marks s seen0 (upd seen (q / 2) true) (added ++ [q]) := by
          refine ⟨fun v => ?_, fun x hx => ?_, fun x hx => ?_⟩
          · by_cases e : v = q / 2
            · subst e; rw [upd_same]; simp only [true_iff]; exact Or.inr ⟨q, by simp, rfl⟩
            · rw [upd_ne _ _ e, hm.sn v]
              constructor
              · rintro (h | ⟨x, hx, h⟩)
                · exact Or.inl h
                · exact Or.inr ⟨x, List.mem_append_left _ hx, h⟩
              · rintro (h | ⟨x, hx, h⟩)
                · exact Or.inl h
                · rcases List.mem_append.1 hx with hx | hx
                  · exact Or.inr ⟨x, hx, h⟩
                  · rw [List.mem_singleton] at hx; subst hx; exact absurd h.symm e
          · rcases List.mem_append.1 hx with hx | hx
            · exact hm.new x hx
            · rw [List.mem_singleton] at hx; subst hx
              cases h0 : seen0 (x / 2) with
              | false => rfl
              | true => have := (hm.sn (x / 2)).2 (Or.inl h0); rw [h1.1] at this; cases this
          · rcases List.mem_append.1 hx with hx | hx
            · exact hm.ad x hx
            · rw [List.mem_singleton] at hx; subst hx
              exact ⟨hq x List.mem_cons_self, h1.2⟩
        obtain ⟨a1, a2, a3⟩ := redLits_spec abs qs _ _ _ stack' seen' added' b hq' hm' he
        refine ⟨a1, fun v hv => a2 v ?_, fun hb => ?_⟩
        · unfold upd; split
          · rfl
          · exact hv
        · obtain ⟨b1, b2, b3, b4⟩ := a3 hb
          refine ⟨fun x hx => ?_, fun x hx => b2 x (List.mem_cons_of_mem _ hx), fun x hx => ?_, fun x hx => ?_⟩
          · rcases List.mem_cons.1 hx with rfl | hx
            · exact Or.inl (a2 _ (upd_same _ _ _))
            · exact b1 x hx
          · rcases b3 x hx with h | h
            · rcases List.mem_cons.1 h with rfl | h
              · exact Or.inr ⟨hq x List.mem_cons_self, h1.2⟩
              · exact Or.inl h
            · exact Or.inr h
          · rcases b4 x hx with h | h
            · rcases List.mem_append.1 h with h | h
              · exact Or.inl h
              · rw [List.mem_singleton] at h; subst h; exact Or.inr (b2 _ List.mem_cons_self)
            · exact Or.inr h
      · rw [if_neg h2] at he
        cases he
        exact ⟨hm, fun _ h => h, fun h => by cases h⟩
    · rw [if_neg h1] at he
      obtain ⟨a1, a2, a3⟩ := redLits_spec abs qs _ _ _ stack' seen' added' b hq' hm he
      refine ⟨a1, a2, fun hb => ?_⟩
      obtain ⟨b1, b2, b3, b4⟩ := a3 hb
      refine ⟨fun x hx => ?_, b2, b3, b4⟩
      rcases List.mem_cons.1 hx with rfl | hx
      · by_cases e : s.level (x / 2) = 0
        · exact Or.inr e
        · left
          apply a2
          cases hs : seen (x / 2) with
          | true => rfl
          | false => exact absurd ⟨hs, by omega⟩ h1
      · exact b1 x hx

theorem Tr.tail_trail {s : S} (h : Tr s) (hdb : Db s) {x c : Nat} (hx : neg x ∈ s.trail) (hl : 0 < s.level (x / 2)) (hr : s.reason (x / 2) = some c) :
    ∀ q ∈ tailOf s c, neg q ∈ s.trail := by
  obtain ⟨rest, hsf⟩ := mem_suffix hx
  have h1 := h.treason (neg x) rest hsf (by rw [neg_var]; exact hl)
  rw [neg_var, hr] at h1
  intro q hq
  exact hsf.subset (List.mem_cons_of_mem _ (h.tail_rest hdb hsf h1 q hq))

theorem litRed_spec {s : S} (ht : Tr s) (hdb : Db s) {seen0 : Nat → Bool} {q : Nat} (abs : Nat) : ∀ (k : Nat) (stack : List Nat) (seen : Nat → Bool) (added : List Nat)
    (red : Bool) (seen' : Nat → Bool) (added' : List Nat), Marks s seen0 seen added → (∀ x ∈ stack, neg x ∈ s.trail ∧ 0 < s.level (x / 2)) →
    (∀ x, x = q ∨ x ∈ added → x ∉ stack → Closed s seen (x / 2)) → litRed s abs k stack seen added = some (red, seen', added') →
    (red = true → Marks s seen0 seen' added' ∧ ∀ x, x = q ∨ x ∈ added' → Closed s seen' (x / 2)) ∧ (red = false → seen' = seen0 ∧ added' = [])
  | 0, _, _, _, _, _, _, _, _, _, he => by cases he
  | k + 1, [], seen, added, red, seen', added', hm, _, hc, he => by
    cases he
    exact ⟨fun _ => ⟨hm, fun x hx => hc x hx (by simp)⟩, fun h => by cases h⟩
  | k + 1, x :: stack, seen, added, red, seen', added', hm, hst, hc, he => by
    unfold litRed at he
    cases hr : s.reason (x / 2) with
    | none => rw [hr] at he; cases he
    | some c =>
      rw [hr] at he
      dsimp only at he
      have htl := ht.tail_trail hdb (hst x List.mem_cons_self).1 (hst x List.mem_cons_self).2 hr
      cases hrl : redLits s abs (tailOf s c) (stack, seen, added) with
      | mk st b =>
        obtain ⟨stack1, seen1, added1⟩ := st
        obtain ⟨a1, a2, a3⟩ := redLits_spec (seen0 := seen0) abs _ _ _ _ _ _ _ _ htl hm hrl
        rw [hrl] at he
        cases b with
        | false =>
          cases he
          exact ⟨fun h => (by cases h), fun _ => ⟨a1.unmark, rfl⟩⟩
        | true =>
          dsimp only at he
          obtain ⟨b1, b2, b3, b4⟩ := a3 rfl
          refine litRed_spec ht hdb abs k _ _ _ red seen' added' a1 (fun y hy => ?_) (fun y hy hn => ?_) he
          · rcases b3 y hy with h | h
            · exact hst y (List.mem_cons_of_mem _ h)
            · exact h
          · by_cases e : y = x
            · subst e; exact ⟨c, hr, b1⟩
            · refine (hc y ?_ ?_).mono a2
              · rcases hy with hy | hy
                · exact Or.inl hy
                · exact Or.inr ((b4 y hy).resolve_right hn)
              · intro h
                rcases List.mem_cons.1 h with h | h
                · exact e h
                · exact hn (b2 y h)

/-- invariant of the deep minimization -/
structure DeepI (s : S) (out kept qs : List Nat) (seen : Nat → Bool) (clear : List Nat) : Prop where
  sub : (kept ++ qs).Sublist out
  sn : ∀ v, seen v = true ↔ (∃ x ∈ out, x / 2 = v) ∨ ∃ x ∈ clear, x / 2 = v
  ad : ∀ x ∈ clear, Closed s seen (x / 2)
  rem : ∀ x ∈ out, x ∈ kept ∨ x ∈ qs ∨ Closed s seen (x / 2)

theorem deepLoop_spec {s : S} (ht : Tr s) (hdb : Db s) {out : List Nat} (abs fuel : Nat) (ho : ∀ q ∈ out, neg q ∈ s.trail ∧ 0 < s.level (q / 2)) :
    ∀ (qs kept : List Nat) (seen : Nat → Bool) (clear kept' : List Nat) (seen' : Nat → Bool) (clear' : List Nat), DeepI s out kept qs seen clear →
    deepLoop s abs fuel qs kept seen clear = some (kept', seen', clear') → DeepI s out kept' [] seen' clear'
  | [], kept, seen, clear, kept', seen', clear', h, he => by cases he; exact h
  | q :: qs, kept, seen, clear, kept', seen', clear', h, he => by
    have hqo : q ∈ out := h.sub.subset (by simp)
    have hkeep : DeepI s out (kept ++ [q]) qs seen clear := by
      refine ⟨by simpa using h.sub, h.sn, h.ad, fun x hx => ?_⟩
      rcases h.rem x hx with h | h | h
      · exact Or.inl (List.mem_append_left _ h)
      · rcases List.mem_cons.1 h with rfl | h
        · exact Or.inl (by simp)
        · exact Or.inr (Or.inl h)
      · exact Or.inr (Or.inr h)
    unfold deepLoop at he
    by_cases hr : s.reason (q / 2) = none
    · rw [if_pos hr] at he
      exact deepLoop_spec ht hdb abs fuel ho qs _ _ _ _ _ _ hkeep he
    · rw [if_neg hr] at he
      cases hl : litRed s abs fuel [q] seen [] with
      | none => rw [hl] at he; cases he
      | some r =>
        obtain ⟨red, seen1, added⟩ := r
        rw [hl] at he
        dsimp only at he
        obtain ⟨h1, h2⟩ := litRed_spec ht hdb (seen0 := seen) (q := q) abs fuel [q] seen [] red seen1 added ⟨by simp, by simp, by simp⟩
          (by simp only [List.mem_singleton, forall_eq]; exact ho q hqo) (fun x hx hn => by
            rcases hx with rfl | hx
            · simp at hn
            · cases hx) hl
        refine deepLoop_spec ht hdb abs fuel ho qs _ _ _ _ _ _ ?_ he
        cases red with
        | false =>
          obtain ⟨rfl, rfl⟩ := h2 rfl
          simpa using hkeep
        | true =>
          obtain ⟨hm, hc⟩ := h1 rfl
          have mono : ∀ v, seen v = true → seen1 v = true := fun v hv => (hm.sn v).2 (Or.inl hv)
          simp only [if_true]
          refine ⟨?_, fun v => ?_, fun x hx => ?_, fun x hx => ?_⟩
          · refine List.Sublist.trans ?_ h.sub
            exact List.Sublist.append_left (List.sublist_cons_self _ _) _
          · rw [hm.sn v, h.sn v]
            constructor
            · rintro ((h | ⟨x, hx, h⟩) | ⟨x, hx, h⟩)
              · exact Or.inl h
              · exact Or.inr ⟨x, List.mem_append_left _ hx, h⟩
              · exact Or.inr ⟨x, List.mem_append_right _ hx, h⟩
            · rintro (h | ⟨x, hx, h⟩)
              · exact Or.inl (Or.inl h)
              · rcases List.mem_append.1 hx with hx | hx
                · exact Or.inl (Or.inr ⟨x, hx, h⟩)
                · exact Or.inr ⟨x, hx, h⟩
          · rcases List.mem_append.1 hx with hx | hx
            · exact (h.ad x hx).mono mono
            · exact hc x (Or.inr hx)
          · rcases h.rem x hx with h | h | h
            · exact Or.inl h
            · rcases List.mem_cons.1 h with rfl | h
              · exact Or.inr (Or.inr (hc x (Or.inl rfl)))
              · exact Or.inr (Or.inl h)
            · exact Or.inr (Or.inr (h.mono mono))

theorem maxLev_spec (lev : Nat → Nat) : ∀ (ys : List Nat) (x : Nat), maxLev lev x ys ∈ x :: ys ∧ ∀ z ∈ x :: ys, lev (z / 2) ≤ lev (maxLev lev x ys / 2)
  | [], x => by simp [maxLev]
  | y :: ys, x => by
    unfold maxLev
    obtain ⟨h1, h2⟩ := maxLev_spec lev ys (if lev (y / 2) > lev (x / 2) then y else x)
    refine ⟨?_, fun z hz => ?_⟩
    · rcases List.mem_cons.1 h1 with h | h
      · rw [h]; split <;> simp
      · simp [h]
    · have h3 := h2 _ List.mem_cons_self
      simp only [List.mem_cons] at hz
      rcases hz with rfl | rfl | hz
      · refine Nat.le_trans ?_ h3
        split <;> omega
      · refine Nat.le_trans ?_ h3
        split <;> omega
      · exact h2 z (List.mem_cons_of_mem _ hz)

theorem bringMax_perm (lev : Nat → Nat) {l : List Nat} (hn : l.Nodup) : (bringMax lev l).Perm l := by
  cases l with
  | nil => exact .refl _
  | cons x r =>
    unfold bringMax
    obtain ⟨h1, _⟩ := maxLev_spec lev r x
    dsimp only
    split
    · exact .refl _
    · rename_i hne
      have hyr : maxLev lev x r ∈ r := by
        rcases List.mem_cons.1 h1 with h | h
        · exact absurd h hne
        · exact h
      generalize maxLev lev x r = y at hne hyr
      rw [List.nodup_cons] at hn
      obtain ⟨a, b, rfl⟩ := List.append_of_mem hyr
      have hnm := (List.perm_middle).nodup_iff.1 hn.2
      rw [List.nodup_cons, List.mem_append, not_or] at hnm
      have hid : ∀ (m : List Nat), y ∉ m → m.map (fun z => if z = y then x else z) = m := by
        intro m hm
        conv_rhs => rw [← List.map_id m]
        apply List.map_congr_left
        intro z hz
        rw [if_neg]
        · rfl
        · rintro rfl; exact hm hz
      rw [List.map_append, List.map_cons, hid a hnm.1.1, hid b hnm.1.2, if_pos rfl]
      have p1 : (y :: (a ++ x :: b)).Perm (y :: x :: (a ++ b)) := List.Perm.cons _ List.perm_middle
      have p2 : (x :: (a ++ y :: b)).Perm (x :: y :: (a ++ b)) := List.Perm.cons _ List.perm_middle
      exact p1.trans ((List.Perm.swap _ _ _).trans p2.symm)

theorem bringMax_head (lev : Nat → Nat) {l : List Nat} {q : Nat} {r : List Nat} (hn : l.Nodup) (h : bringMax lev l = q :: r) : ∀ x ∈ l, lev (x / 2) ≤ lev (q / 2) := by
  cases l with
  | nil => simp
  | cons x r' =>
    obtain ⟨_, h2⟩ := maxLev_spec lev r' x
    unfold bringMax at h
    dsimp only at h
    split at h
    · rename_i e
      injection h with h _
      subst h
      rw [e] at h2
      exact h2
    · injection h with h _
      subst h
      exact h2

/-- what the analysis of a conflict yields -/
structure AnOk (Φ : (Nat → Bool) → Prop) (s : S) (l0 : Nat) (out : List Nat) (bt : Nat) (seen : Nat → Bool) : Prop where
  imp : ∀ u, Φ u → Sat u (l0 :: out)
  fst : neg l0 ∈ s.trail
  cur : s.level (l0 / 2) = s.dl
  oth : ∀ q ∈ out, neg q ∈ s.trail ∧ 0 < s.level (q / 2) ∧ s.level (q / 2) < s.dl
  nd : (l0 :: out).Nodup
  lt : bt < s.dl
  nil : out = [] → bt = 0
  cons : ∀ q r, out = q :: r → bt = s.level (q / 2)
  max : ∀ q ∈ out, s.level (q / 2) ≤ bt
  clr : ∀ v, seen v = false

theorem analyze_spec {Φ : (Nat → Bool) → Prop} {J : Nat → Prop} {s : S} {c : Nat} (hd : 0 < s.dl) (h : Confl Φ J s c) {cfg : Min} (hcf : cfg = .basic → s.ams = []) {fuel : Nat} {ch : Choice} {l0 bt : Nat} {out : List Nat}
    {seen : Nat → Bool} (he : analyze cfg fuel ch s c = some (l0, out, bt, seen)) : AnOk Φ s l0 out bt seen := by
  have hdb := h.pi.d
  have hm := h.pi.m
  have ht := h.pi.t
  have ha := h.pi.a
  have hi0 : AnI s s.trail ⟨s.seen, [], 0⟩ := by
    refine ⟨?_, ?_, by simp, by simp⟩
    · unfold cnt
      rw [List.filter_eq_nil_iff.2]
      · rfl
      · intro x _; simp [hdb.seen0]
    · intro v hv; dsimp only at hv; rw [hdb.seen0 v] at hv; cases hv
  obtain ⟨b1, b2, b3, b4⟩ := AnI.marks ht hd (List.suffix_refl _) (conflLits s c) hi0 h.fls (fun q hq _ => h.fls q hq)
  unfold analyze at he
  cases hal : anLoop s s.trail ((conflLits s c).foldl (mark s) ⟨s.seen, [], 0⟩) with
  | none => rw [hal] at he; cases he
  | some r =>
    obtain ⟨p, st⟩ := r
    rw [hal] at he
    obtain ⟨c1, c2, c3, c4⟩ := anLoop_spec hdb hm ha ht hd _ _ p st (List.suffix_refl _) b1 (by
      intro u hu
      obtain ⟨q, hq, hv⟩ := h.sat hu
      exact b1.cover hm ht (List.suffix_refl _) hu (h.fls q hq) (fun _ => h.fls q hq) (b4 q hq) hv) (by
      obtain ⟨q, hq, hl⟩ := h.cur
      rw [b1.pc]
      exact List.length_pos_of_mem (a := neg q) (List.mem_filter.2 ⟨h.fls q hq, by simp [hl, b4 q hq (by omega)]⟩)) hal
    have hnd0 : st.out.Nodup := List.Nodup.of_map _ c3.nd
    have hsn : ∀ v, st.seen v = true ↔ ∃ x ∈ st.out, x / 2 = v := by
      intro v
      constructor
      · intro hv
        rcases c3.sn v hv with h | ⟨t, ht, _⟩
        · exact h
        · cases ht
      · rintro ⟨x, hx, rfl⟩; exact (c3.out x hx).2.2.2
    -- the three kinds of minimization
    have key : ∀ out1 seen1 added, (match cfg with
        | .deep => deepLoop s (st.out.foldl (fun a q => a ||| absLevel s (q / 2)) 0) fuel st.out [] st.seen []
        | .basic => some (st.out.filter (basicKeep s st.seen), st.seen, [])
        | .no => some (st.out, st.seen, [])) = some (out1, seen1, added) →
        out1.Sublist st.out ∧ (∀ v, seen1 v = true → (∃ x ∈ st.out, x / 2 = v) ∨ ∃ x ∈ added, x / 2 = v) ∧ ∀ u, Φ u → Sat u (neg p :: out1) := by
      intro out1 seen1 added hk
      cases cfg with
      | no =>
        cases hk
        exact ⟨List.Sublist.refl _, fun v hv => Or.inl ((hsn v).1 hv), c4⟩
      | basic =>
        cases hk
        refine ⟨List.filter_sublist, fun v hv => Or.inl ((hsn v).1 hv), min_sound hdb hm ha ht (seen := st.seen) c4 ?_ fun q hq => ⟨(c3.out q hq).1, (c3.out q hq).2.2.2⟩⟩
        intro t htt hs hl
        obtain ⟨x, hx, e⟩ := (hsn _).1 hs
        have hxt : x = neg t := by
          have := ht.same_var (c3.out x hx).1 htt (by rw [neg_var]; exact e)
          rw [← this, neg_neg]
        subst hxt
        by_cases hb : basicKeep s st.seen (neg t) = true
        · exact Or.inl (List.mem_filter.2 ⟨hx, hb⟩)
        · right
          unfold basicKeep at hb
          rw [neg_var] at hb
          cases hr : s.reason (t / 2) with
          | none => rw [hr] at hb; simp at hb
          | some c =>
            have ham : s.am c = none := by
              obtain ⟨rest, hsf⟩ := mem_suffix htt
              have hrs := ht.treason t rest hsf hl
              rw [hr] at hrs
              cases ham : s.am c with
              | none => rfl
              | some k => have := (hrs.2 k ham).1; rw [hcf rfl] at this; cases this
            rw [hr] at hb
            dsimp only at hb
            rw [ham] at hb
            dsimp only at hb
            simp only [List.any_eq_true, Bool.and_eq_true, Bool.not_eq_true', decide_eq_true_eq, not_exists, not_and] at hb
            refine ⟨c, hr, fun q hq => ?_⟩
            have hq' : q ∈ (if (s.cls c).rest = [] then (s.cls c).lits else (s.cls c).b :: (s.cls c).rest) := by
              unfold tailOf at hq
              rw [ham] at hq
              dsimp only at hq
              by_cases e1 : (s.cls c).rest = []
              · rw [if_pos e1]
                split at hq
                · rw [List.mem_singleton] at hq; subst hq; simp [Cls.lits]
                · exact List.mem_cons_of_mem _ hq
              · rw [if_neg e1]
                rw [if_neg (fun e => e1 e.1)] at hq
                exact hq
            have := hb q hq'
            by_cases e : s.level (q / 2) = 0
            · exact Or.inr e
            · left
              cases hs : st.seen (q / 2) with
              | true => rfl
              | false => exact absurd (by omega) (this hs)
      | deep =>
        have hdi := deepLoop_spec ht hdb (out := st.out) _ fuel (fun q hq => ⟨(c3.out q hq).1, (c3.out q hq).2.1⟩) st.out [] st.seen [] out1 seen1 added
          ⟨by simp, fun v => by rw [hsn v]; simp, by simp, fun x hx => Or.inr (Or.inl hx)⟩ hk
        refine ⟨by simpa using hdi.sub, fun v hv => (hdi.sn v).1 hv, min_sound hdb hm ha ht (seen := seen1) c4 ?_ fun q hq => ⟨(c3.out q hq).1, (hdi.sn _).2 (Or.inl ⟨q, hq, rfl⟩)⟩⟩
        intro t htt hs hl
        rcases (hdi.sn _).1 hs with ⟨x, hx, e⟩ | ⟨x, hx, e⟩
        · have hxt : x = neg t := by
            have := ht.same_var (c3.out x hx).1 htt (by rw [neg_var]; exact e)
            rw [← this, neg_neg]
          subst hxt
          rcases hdi.rem _ hx with h | h | h
          · exact Or.inl h
          · cases h
          · right; rwa [neg_var] at h
        · right; rw [← e]; exact hdi.ad x hx
    dsimp only at he
    split at he
    · cases he
    rename_i out1 seen1 added hk
    obtain ⟨k1, k2, k3⟩ := key out1 seen1 added hk
    -- minimization with binary clauses
    have key2 : ∃ out2 : List Nat, (if ch.binMin then binMinimize s ch.binOrd (neg p) out1 else out1) = out2 ∧ (∀ q ∈ out2, q ∈ out1) ∧ out2.Nodup ∧ ∀ u, Φ u → Sat u (neg p :: out2) := by
      refine ⟨_, rfl, ?_⟩
      split
      · unfold binMinimize
        refine ⟨fun q hq => (List.mem_filter.1 ((ch.binOrd.perm _).mem_iff.1 hq)).1, (ch.binOrd.perm _).nodup_iff.2 ((hnd0.sublist k1).filter _), fun u hu => ?_⟩
        obtain ⟨q, hq, hv⟩ := k3 u hu
        rcases List.mem_cons.1 hq with rfl | hq
        · exact ⟨_, List.mem_cons_self, hv⟩
        · by_cases hrem : ((s.watchesBin (neg (neg p))).any fun e => e.2 / 2 == q / 2 && s.value e.2 == some true) = true
          · rw [List.any_eq_true] at hrem
            obtain ⟨⟨c', imp⟩, hmem, hcond⟩ := hrem
            simp only [Bool.and_eq_true, beq_iff_eq] at hcond
            obtain ⟨d1, d2, d3⟩ := hdb.bMem _ c' imp hmem
            rw [neg_neg] at d3
            have hqi : neg q = imp := ht.same_var (c3.out q (k1.subset hq)).1 ((ht.tval _).1 hcond.2) (by rw [neg_var]; exact hcond.1.symm)
            obtain ⟨x, hx, hxv⟩ := hm.db c' d1 u hu
            refine ⟨neg p, List.mem_cons_self, ?_⟩
            have hni : lv u imp = false := by rw [← hqi, lv_neg, hv]; rfl
            simp only [Cls.lits, d2, List.mem_cons, List.not_mem_nil, or_false] at hx
            rcases d3 with ⟨e1, e2⟩ | ⟨e1, e2⟩
            · rcases hx with rfl | rfl
              · rw [e1]; exact hxv
              · rw [← e2, hni] at hxv; cases hxv
            · rcases hx with rfl | rfl
              · rw [← e2, hni] at hxv; cases hxv
              · rw [e1]; exact hxv
          · refine ⟨q, List.mem_cons_of_mem _ ((ch.binOrd.perm _).mem_iff.2 (List.mem_filter.2 ⟨hq, ?_⟩)), hv⟩
            simpa using hrem
      · exact ⟨fun _ h => h, hnd0.sublist k1, k3⟩
    obtain ⟨out2, e2, l1, l2, l3⟩ := key2
    rw [e2] at he
    injection he with he
    injection he with e3 he
    injection he with e4 he
    injection he with e5 e6
    have hperm := bringMax_perm s.level l2
    subst e3
    have hoth : ∀ q ∈ out, neg q ∈ s.trail ∧ 0 < s.level (q / 2) ∧ s.level (q / 2) < s.dl := by
      intro q hq
      rw [← e4] at hq
      obtain ⟨h1, h2, h3, _⟩ := c3.out q (k1.subset (l1 q (hperm.mem_iff.1 hq)))
      exact ⟨h1, h2, h3⟩
    have hcons : ∀ q r, out = q :: r → bt = s.level (q / 2) := by
      intro q r e
      rw [← e5, e4, e]
    have hnil : out = [] → bt = 0 := by
      intro e
      rw [← e5, e4, e]
    refine ⟨?_, by rw [neg_neg]; exact c1, by rw [neg_var]; exact c2, hoth, ?_, ?_, hnil, hcons, ?_, ?_⟩
    · intro u hu
      obtain ⟨q, hq, hv⟩ := l3 u hu
      rcases List.mem_cons.1 hq with rfl | hq
      · exact ⟨_, List.mem_cons_self, hv⟩
      · exact ⟨q, List.mem_cons_of_mem _ (by rw [← e4]; exact hperm.mem_iff.2 hq), hv⟩
    · rw [List.nodup_cons]
      refine ⟨fun hmem => ?_, by rw [← e4]; exact hperm.nodup_iff.2 l2⟩
      have := (hoth _ hmem).2.2
      rw [neg_var, c2] at this
      omega
    · cases hx : out with
      | nil => rw [hnil hx]; exact hd
      | cons q r =>
        rw [hcons q r hx]
        exact (hoth q (by rw [hx]; simp)).2.2
    · intro q hq
      cases hx : out with
      | nil => rw [hx] at hq; cases hq
      | cons y r =>
        rw [hcons y r hx]
        rw [hx] at e4
        refine bringMax_head s.level l2 e4 q ?_
        rw [hx, ← e4] at hq
        exact hperm.mem_iff.1 hq
    · intro v
      rw [← e6]
      apply unmark_false
      cases hs : seen1 v with
      | false => exact Or.inl rfl
      | true =>
        right
        rcases k2 v hs with ⟨x, hx, e⟩ | ⟨x, hx, e⟩
        · exact ⟨x, by simp [hx], e⟩
        · exact ⟨x, by simp [hx], e⟩

end Verif.Sat
