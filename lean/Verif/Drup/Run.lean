import Verif.Drup.Prop
/-!
# Forward and backward pass of the DRUP check
-/
namespace Verif.Drup
section
variable {Bs : List (List Int)} {W : Nat → Prop} {L : List Int} {i : Nat}

/-! ## watches -/

theorem removeWatch_eq {c : Nat} {l : Int} {s s' : D} (h : s.removeWatch c l = some s') :
    ∃ w, s' = { s with wl := w } ∧ ∀ d k, cnt s' d k + (if d = c ∧ k = l then 1 else 0) = cnt s d k := by
  unfold D.removeWatch at h
  split at h
  · cases h
  · rename_i p hp
    injection h with h
    refine ⟨_, h.symm, fun d k => ?_⟩
    obtain ⟨hlt, hpp, _⟩ := List.findIdx?_eq_some_iff_getElem.1 hp
    have he : (s.wl l)[p]? = some (s.wl l)[p] := List.getElem?_eq_getElem hlt
    have hc : (s.wl l)[p].1 = c := by simpa using hpp
    unfold cnt
    rw [← h]
    dsimp only
    by_cases hk : k = l
    · subst hk
      rw [upd_self]
      have := countP_swapPop he d
      rw [hc] at this
      by_cases hd : d = c
      · subst hd; simpa using this
      · rw [if_neg (Ne.symm hd)] at this
        simpa [hd] using this
    · rw [upd_ne _ _ hk]; simp [hk]

theorem removeWatches_eq {c : Nat} {s s' : D} {b : List Int} (hb : s.cls[c]? = some b) (h : s.removeWatches c = some s') :
    ∃ w, s' = { s with wl := w } ∧ (2 ≤ b.length → ∀ d k, cnt s' d k + (if d = c then (b.take 2).count k else 0) = cnt s d k) ∧ (¬ 2 ≤ b.length → s' = s) := by
  unfold D.removeWatches at h
  rw [hb] at h
  match b with
  | x :: y :: zs =>
    dsimp only at h
    obtain ⟨s1, h1, h2⟩ := Option.bind_eq_some_iff.1 h
    obtain ⟨w1, e1, c1⟩ := removeWatch_eq h1
    obtain ⟨w2, e2, c2⟩ := removeWatch_eq h2
    refine ⟨w2, by rw [e2, e1], fun _ d k => ?_, fun h => absurd (by simp) h⟩
    have g1 := c1 d k
    have g2 := c2 d k
    by_cases hd : d = c
    · simp only [hd, true_and, if_true, List.take_succ_cons, List.take_zero, List.count_cons, List.count_nil, beq_iff_eq] at g1 g2 ⊢
      by_cases hx : k = x <;> by_cases hy : k = y <;> simp [hx, hy, eq_comm] at g1 g2 ⊢ <;> (try simp [Ne.symm hx] ) <;> (try simp [Ne.symm hy]) <;> omega
    · simp only [hd, false_and, if_false] at g1 g2 ⊢
      omega
  | [x] => injection h with h; subst h; exact ⟨_, rfl, fun h => by simp at h, fun _ => rfl⟩
  | [] => injection h with h; subst h; exact ⟨_, rfl, fun h => by simp at h, fun _ => rfl⟩

theorem addWatchLit_cnt (l : Int) (c : Nat) (b : Bool) (s : D) (d : Nat) (k : Int) : cnt (s.addWatchLit l (c, b)) d k = cnt s d k + (if d = c ∧ k = l then 1 else 0) := by
  unfold cnt D.addWatchLit
  dsimp only
  by_cases hk : k = l
  · subst hk
    rw [upd_self, List.countP_append]
    by_cases hd : d = c
    · simp [hd]
    · simp [hd, Ne.symm hd]
  · rw [upd_ne _ _ hk]; simp [hk]

theorem addWatches_eq {c : Nat} {s s' : D} {b : List Int} (hb : s.cls[c]? = some b) (h : s.addWatches c = some s') :
    ∃ w, s' = { s with wl := w } ∧ (2 ≤ b.length → ∀ d k, cnt s' d k = cnt s d k + (if d = c then (b.take 2).count k else 0)) ∧ (¬ 2 ≤ b.length → s' = s) := by
  unfold D.addWatches at h
  rw [hb] at h
  match b with
  | x :: y :: zs =>
    injection h with h
    refine ⟨_, h.symm, fun _ d k => ?_, fun h => absurd (by simp) h⟩
    rw [← h, addWatchLit_cnt, addWatchLit_cnt]
    by_cases hd : d = c
    · simp only [hd, true_and, if_true, List.take_succ_cons, List.take_zero, List.count_cons, List.count_nil, beq_iff_eq]
      by_cases hx : k = x <;> by_cases hy : k = y <;> simp [hx, hy, eq_comm] <;> (try simp [Ne.symm hx]) <;> (try simp [Ne.symm hy]) <;> omega
    · simp [hd]
  | [x] => injection h with h; subst h; exact ⟨_, rfl, fun h => by simp at h, fun _ => rfl⟩
  | [] => injection h with h; subst h; exact ⟨_, rfl, fun h => by simp at h, fun _ => rfl⟩

theorem Inv.congrW {W' : Nat → Prop} {s : D} (h : Inv Bs W L i s) (e : ∀ c, W c ↔ W' c) : Inv Bs W' L i s := by
  have : W = W' := funext fun c => propext (e c)
  rw [← this]; exact h

theorem Inv.remove {s s' : D} (h : Inv Bs W L i s) {c : Nat} {b : List Int} (hb : s.cls[c]? = some b) (hl : 2 ≤ b.length) (hr : s.removeWatches c = some s') :
    W c ∧ Inv Bs (fun d => W d ∧ d ≠ c) L i s' := by
  obtain ⟨w, e, hc, _⟩ := removeWatches_eq hb hr
  have hc := hc hl
  have hW : W c := by
    refine Classical.byContradiction fun hW => ?_
    match b, hl with
    | x :: y :: zs, _ =>
      have := hc c x
      rw [h.off c hW x, if_pos rfl] at this
      simp at this
  have e1 : s'.cls = s.cls := by rw [e]
  have e2 : s'.mkd = s.mkd := by rw [e]
  have e3 : s'.fls = s.fls := by rw [e]
  have e4 : s'.stk = s.stk := by rw [e]
  have e5 : s'.reason = s.reason := by rw [e]
  refine ⟨hW, by rw [e1]; exact h.len, by rw [e2]; exact h.mlen, h.ile, h.nz, by rw [e1]; exact h.perm, fun d hd => ?_, fun d hd l => ?_, fun d hd => h.lt d hd.1, by rw [e3, e4]; exact h.fls, by rw [e1, e5, e4]; exact h.just⟩
  · obtain ⟨b1, k1, k2, k3⟩ := h.on d hd.1
    refine ⟨b1, by rw [e1]; exact k1, k2, fun l => ?_⟩
    have := hc d l
    rw [if_neg hd.2] at this
    rw [← k3 l]; exact this
  · have hcl := hc d l
    by_cases hdc : d = c
    · subst hdc
      obtain ⟨b1, k1, k2, k3⟩ := h.on d hW
      rw [hb] at k1; injection k1 with k1; subst k1
      rw [if_pos rfl, k3 l] at hcl
      omega
    · rw [if_neg hdc, h.off d (fun hWd => hd ⟨hWd, hdc⟩) l] at hcl
      exact hcl

theorem Inv.add {s s' : D} (h : Inv Bs W L i s) {c : Nat} {b : List Int} (hW : ¬ W c) (hc : c < i) (hb : s.cls[c]? = some b) (hl : 2 ≤ b.length) (hr : s.addWatches c = some s') :
    Inv Bs (fun d => W d ∨ d = c) L i s' := by
  obtain ⟨w, e, hcn, _⟩ := addWatches_eq hb hr
  have hcn := hcn hl
  have e1 : s'.cls = s.cls := by rw [e]
  have e2 : s'.mkd = s.mkd := by rw [e]
  have e3 : s'.fls = s.fls := by rw [e]
  have e4 : s'.stk = s.stk := by rw [e]
  have e5 : s'.reason = s.reason := by rw [e]
  refine ⟨by rw [e1]; exact h.len, by rw [e2]; exact h.mlen, h.ile, h.nz, by rw [e1]; exact h.perm, fun d hd => ?_, fun d hd l => ?_, fun d hd => ?_, by rw [e3, e4]; exact h.fls, by rw [e1, e5, e4]; exact h.just⟩
  · by_cases hdc : d = c
    · subst hdc
      refine ⟨b, by rw [e1]; exact hb, hl, fun l => ?_⟩
      rw [hcn, h.off d hW l, if_pos rfl, Nat.zero_add]
    · obtain ⟨b1, k1, k2, k3⟩ := h.on d (hd.resolve_right hdc)
      refine ⟨b1, by rw [e1]; exact k1, k2, fun l => ?_⟩
      rw [hcn, if_neg hdc, k3 l, Nat.add_zero]
  · rw [not_or] at hd
    rw [hcn, if_neg hd.2, h.off d hd.1 l]
  · rcases hd with hd | rfl
    · exact h.lt d hd
    · exact hc

/-- fewer clauses may be used -/
theorem Inv.bound {j : Nat} {s : D} (h : Inv Bs W L i s) (hj : j ≤ Bs.length) (hW : ∀ c, W c → c < j) (hr : ∀ l ∈ s.stk, ∀ c, s.reason l.natAbs = c + 1 → c < j) : Inv Bs W L j s := by
  refine ⟨h.len, h.mlen, hj, h.nz, h.perm, h.on, h.off, hW, h.fls, h.just.congr (fun _ _ => rfl) (fun l hl c zs h1 h2 => ⟨hr l hl c h1, h2⟩) fun l hl h0 => ?_⟩
  rcases h.just.mem hl with ⟨_, h1⟩ | ⟨c', zs', k1, _⟩
  · exact h1
  · omega

/-- another order of the literals of a clause which is not in use -/
theorem Inv.setFree {s : D} (h : Inv Bs W L i s) {c : Nat} {b b' : List Int} (hc : i ≤ c) (hb : s.cls[c]? = some b) (hp : b'.Perm b) : Inv Bs W L i { s with cls := s.cls.set c b' } := by
  have hlt : c < s.cls.length := (List.getElem?_eq_some_iff.1 hb).1
  have g1 : (s.cls.set c b')[c]? = some b' := by rw [List.getElem?_set_self hlt]
  have g2 : ∀ d : Nat, d ≠ c → (s.cls.set c b')[d]? = s.cls[d]? := by intro d hd; rw [List.getElem?_set_ne (Ne.symm hd)]
  refine ⟨by show (s.cls.set c b').length = _; rw [List.length_set]; exact h.len, h.mlen, h.ile, h.nz, fun d b1 h1 => ?_, fun d hWd => ?_, h.off, h.lt, h.fls, ?_⟩
  · have h1 : (s.cls.set c b')[d]? = some b1 := h1
    by_cases hdc : d = c
    · subst hdc
      rw [g1] at h1; injection h1 with h1; subst h1
      obtain ⟨b0, k1, k2⟩ := h.perm d b hb
      exact ⟨b0, k1, hp.trans k2⟩
    · rw [g2 d hdc] at h1; exact h.perm d b1 h1
  · obtain ⟨b1, k1, k2⟩ := h.on d hWd
    have : d ≠ c := fun e => absurd (h.lt d hWd) (by omega)
    exact ⟨b1, (g2 d this).trans k1, k2⟩
  · refine h.just.congr (fun _ _ => rfl) (fun l hl d zs h1 h2 => ?_) (fun l hl h0 => ?_)
    · rcases h.just.mem hl with ⟨h0, _⟩ | ⟨c', zs', k1, k2, _⟩
      · omega
      · have : c' = d := by omega
        subst this
        exact ⟨k2, (g2 c' (by omega)).trans h2⟩
    · rcases h.just.mem hl with ⟨_, h1⟩ | ⟨c', zs', k1, _⟩
      · exact h1
      · omega

/-! ## the literals of a lemma -/

theorem scan_ok (fls : Int → Nat) : ∀ (n : Nat) (body buf : List Int) (flag : Bool) (p : Nat), p + n = body.length → buf.length ≤ p → (buf ≠ [] → body.head? = buf.head?) →
    (scan fls n body buf flag p).1.Perm body ∧ (scan fls n body buf flag p).2.1 = buf ++ (body.drop p).filter (fun l => fls l == 0) ∧
    (scan fls n body buf flag p).2.2 = (flag || (body.drop p).any fun l => fls (-l) != 0) ∧
    ((scan fls n body buf flag p).2.1 ≠ [] → (scan fls n body buf flag p).1.head? = (scan fls n body buf flag p).2.1.head?)
  | 0, body, buf, flag, p, hp, _, hh => by
    have : body.drop p = [] := List.drop_eq_nil_of_le (by omega)
    unfold scan
    rw [this]
    exact ⟨List.Perm.refl _, by simp, by simp, hh⟩
  | n + 1, body, buf, flag, p, hp, hb, hh => by
    have hlt : p < body.length := by omega
    have hd : body.drop p = body[p] :: body.drop (p + 1) := List.drop_eq_getElem_cons hlt
    have hg : body.getD p 0 = body[p] := by rw [List.getD_eq_getElem?_getD, List.getElem?_eq_getElem hlt]; rfl
    unfold scan
    dsimp only
    rw [hg]
    split
    · rename_i hf
      obtain ⟨b', hb'⟩ : ∃ b', b' = if buf.length ≤ 1 then (body.set p (body.getD buf.length 0)).set buf.length body[p] else body := ⟨_, rfl⟩
      rw [← hb']
      have hj : buf.length < body.length := by omega
      have hgj : body.getD buf.length 0 = body[buf.length] := by rw [List.getD_eq_getElem?_getD, List.getElem?_eq_getElem hj]; rfl
      have e1 : b'.Perm body := by
        rw [hb']; split
        · rw [hgj]; exact List.set_set_perm hlt hj
        · exact List.Perm.refl _
      have e2 : b'.drop (p + 1) = body.drop (p + 1) := by
        rw [hb']; split
        · rw [List.drop_set_of_lt (by omega), List.drop_set_of_lt (by omega)]
        · rfl
      have e3 : b'.head? = (buf ++ [body[p]]).head? := by
        rw [hb']
        cases hbuf : buf with
        | nil =>
          simp only [List.length_nil, Nat.zero_le, if_true, List.nil_append, List.head?_cons]
          rw [List.head?_eq_getElem?, List.getElem?_set_self (by simp; omega)]
        | cons x xs =>
          rw [hbuf] at hh hb
          have h0 := hh (by simp)
          simp only [List.length_cons] at hb
          rw [List.cons_append, List.head?_cons]
          rw [List.head?_cons] at h0
          split
          · rw [List.head?_eq_getElem?, List.getElem?_set_ne (by simp), List.getElem?_set_ne (by omega), ← List.head?_eq_getElem?]; exact h0
          · exact h0
      obtain ⟨i1, i2, i3, i4⟩ := scan_ok fls n b' (buf ++ [body[p]]) (flag || fls (-body[p]) != 0) (p + 1) (by rw [e1.length_eq]; omega) (by simp; omega) (fun _ => e3)
      refine ⟨i1.trans e1, ?_, ?_, i4⟩
      · rw [i2, e2, hd, List.filter_cons_of_pos (by simpa using hf)]; simp
      · rw [i3, e2, hd, List.any_cons, Bool.or_assoc]
    · rename_i hf
      obtain ⟨i1, i2, i3, i4⟩ := scan_ok fls n body buf (flag || fls (-body[p]) != 0) (p + 1) (by omega) (by omega) hh
      refine ⟨i1, ?_, ?_, i4⟩
      · rw [i2, hd, List.filter_cons_of_neg (by simpa using hf)]
      · rw [i3, hd, List.any_cons, Bool.or_assoc]

/-! ## assumptions -/

theorem Just.zero {cls : List (List Int)} {reason : Nat → Nat} {x : Nat} : ∀ {st : List Int}, Just cls reason L i st → (∀ l ∈ st, l.natAbs = x → l ∈ L) → Just cls (upd reason x 0) L i st
  | [], _, _ => trivial
  | l :: rest, h, hx => by
    refine ⟨?_, Just.zero h.2 fun l hl => hx l (List.mem_cons_of_mem _ hl)⟩
    by_cases he : l.natAbs = x
    · left; rw [he, upd_self]; exact ⟨rfl, hx l List.mem_cons_self he⟩
    · rw [upd_ne _ _ he]; exact h.1

theorem Inv.assume {s : D} (h : Inv Bs W L i s) {b : Int} (hb : b ∈ L) (hx : ∀ l ∈ s.stk, l.natAbs = b.natAbs → l ∈ L) :
    Inv Bs W L i { s.assign (-b) with reason := upd s.reason b.natAbs 0 } := by
  refine ⟨h.len, h.mlen, h.ile, h.nz, h.perm, h.on, h.off, h.lt, fun l => ?_, ?_, ?_⟩
  · show upd s.fls (- -b) 1 l ≠ 0 ↔ l ∈ - -b :: s.stk
    rw [Int.neg_neg]
    by_cases hl : l = b
    · subst hl; rw [upd_self]; simp
    · rw [upd_ne _ _ hl, h.fls l]; simp [hl]
  · left
    show upd s.reason b.natAbs 0 (- -b).natAbs = 0 ∧ - -b ∈ L
    rw [Int.neg_neg, upd_self]; exact ⟨rfl, hb⟩
  · exact h.just.zero hx

theorem assumeAll_ok : ∀ {bs : List Int} {s : D}, Inv Bs W L i s → (∀ b ∈ bs, b ∈ L) → (∀ b ∈ bs, ∀ l ∈ s.stk, l.natAbs = b.natAbs → l ∈ L) →
    Inv Bs W L i (s.assumeAll bs) ∧ (s.assumeAll bs).stk = bs.reverse ++ s.stk ∧ (∀ v, (∀ b ∈ bs, b.natAbs ≠ v) → (s.assumeAll bs).reason v = s.reason v) ∧
    (∀ v, (s.assumeAll bs).reason v = s.reason v ∨ (s.assumeAll bs).reason v = 0) ∧
    (s.assumeAll bs).cls = s.cls ∧ (s.assumeAll bs).mkd = s.mkd ∧ (s.assumeAll bs).forced = s.forced
  | [], s, h, _, _ => ⟨h, rfl, fun _ _ => rfl, fun _ => .inl rfl, rfl, rfl, rfl⟩
  | b :: bs, s, h, hb, hx => by
    obtain ⟨i1, i2, i3, i4, i5, i6, i7⟩ := assumeAll_ok (bs := bs) (h.assume (hb b List.mem_cons_self) (hx b List.mem_cons_self)) (fun c hc => hb c (List.mem_cons_of_mem _ hc)) (by
      intro c hc l hl he
      have hl : l ∈ - -b :: s.stk := hl
      rw [Int.neg_neg] at hl
      rcases List.mem_cons.1 hl with rfl | hl
      · exact hb _ List.mem_cons_self
      · exact hx c (List.mem_cons_of_mem _ hc) l hl he)
    refine ⟨i1, ?_, fun v hv => ?_, fun v => ?_, i5, i6, i7⟩
    · show (D.assumeAll bs _).stk = _
      rw [i2]
      show bs.reverse ++ (- -b :: s.stk) = _
      rw [Int.neg_neg, List.reverse_cons, List.append_assoc]; rfl
    · show (D.assumeAll bs _).reason v = _
      rw [i3 v fun c hc => hv c (List.mem_cons_of_mem _ hc)]
      exact upd_ne _ _ (Ne.symm (hv b List.mem_cons_self))
    · rcases i4 v with h1 | h1
      · by_cases he : v = b.natAbs
        · right
          refine h1.trans ?_
          rw [he]; exact upd_self _ _ _
        · left
          refine h1.trans ?_
          exact upd_ne _ _ he
      · exact .inr h1

/-! ## unwinding -/

theorem popTo_ok {u : Int} : ∀ {e st : List Int} {fls : Int → Nat}, -u ∉ e → ∃ f, popTo u (e ++ -u :: st) fls = some (st, f) ∧ ∀ l, f l = if l ∈ e ∨ l = -u then 0 else fls l
  | [], st, fls, _ => ⟨upd fls (-u) 0, by unfold popTo; simp, fun l => by by_cases h : l = -u <;> simp [upd, h]⟩
  | x :: e, st, fls, h => by
    rw [List.mem_cons, not_or] at h
    obtain ⟨f, h1, h2⟩ := popTo_ok (e := e) (st := st) (fls := upd fls x 0) h.2
    refine ⟨f, ?_, fun l => ?_⟩
    · rw [List.cons_append]; unfold popTo
      rw [if_neg (Ne.symm h.1)]; exact h1
    · rw [h2 l]
      by_cases hl : l ∈ e ∨ l = -u
      · rw [if_pos hl, if_pos (by rcases hl with hl | hl <;> simp [hl])]
      · rw [if_neg hl]
        rw [not_or] at hl
        by_cases hx : l = x
        · subst hx; rw [upd_self]; simp
        · rw [upd_ne _ _ hx]; simp [hl, hx]

/-! ## the passes -/

/-- between two entries of the forward pass -/
structure Good (Bs : List (List Int)) (W : Nat → Prop) (i : Nat) (s : D) : Prop where
  inv : Inv Bs W [] i s
  processed : s.processed = s.stk.length
  fresh : ∀ v, s.reason v ≠ 0 → ∃ l ∈ s.stk, l.natAbs = v
  unmarked : ∀ c : Nat, i ≤ c → s.mkd[c]? ≠ some true

/-- `s2`: the state of the backward pass where the state of the forward pass was `s`; the lemmas from `k` on are checked -/
structure Back (Bs : List (List Int)) (W : Nat → Prop) (i k : Nat) (s s2 : D) : Prop where
  inv : Inv Bs W [] i s2
  stk : s2.stk = s.stk
  forced : s2.forced = s.stk.length
  processed : s2.processed = s.stk.length
  rs : ∀ l ∈ s.stk, s2.reason l.natAbs = s.reason l.natAbs
  rw : ∀ v c, c < i → ¬ W c → (∀ b, Bs[c]? = some b → 2 ≤ b.length) → s2.reason v = c + 1 → s.reason v = c + 1
  cls : ∀ c : Nat, c < i → ¬ W c → s2.cls[c]? = s.cls[c]?
  new : ∀ c : Nat, s2.mkd[c]? = some true → s.mkd[c]? = some true ∨ ¬ Blk Bs s c
  sup : ∀ j : Nat, k ≤ j → s2.mkd[j]? = some true → ∀ v, AllTr Bs s2.mkd j v → ∀ b, Bs[j]? = some b → Tr v b
  fin : ∀ v, ¬ AllTr Bs s2.mkd Bs.length v

theorem AllTr.le {m m' : List Bool} {j k : Nat} {v : Nat → Bool} (h : AllTr Bs m k v) (hj : j ≤ k) (hm : ∀ c : Nat, m'[c]? = some true → m[c]? = some true) : AllTr Bs m' j v :=
  fun c hc h1 b hb => h c (by omega) (hm c h1) b hb

/-- the check of lemma `i` -/
theorem rup_ok {fuel : Nat} {s s3 s4 : D} {b0 buf : List Int} {marked : Bool} (B : Back Bs W i (i + 1) s s3) (hB : Bs[i]? = some b0)
    (hbuf : marked = true → ∀ b ∈ buf, b ∈ b0 ∧ b ∉ s.stk ∧ -b ∉ s.stk) (hm : marked = false → s3.mkd[i]? ≠ some true) (h : s3.rup fuel marked buf = some s4) : Back Bs W i i s s4 := by
  unfold D.rup at h
  cases hmk : marked with
  | false =>
    rw [hmk, if_neg (by decide)] at h
    injection h with h; subst h
    refine ⟨B.inv, B.stk, B.forced, B.processed, B.rs, B.rw, B.cls, B.new, fun j hj h1 => ?_, B.fin⟩
    by_cases hji : j = i
    · subst hji; exact absurd h1 (hm hmk)
    · exact B.sup j (by omega) h1
  | true =>
    have hbuf := hbuf hmk
    rw [hmk, if_pos rfl] at h
    have hsame : ∀ b ∈ buf, ∀ l ∈ s.stk, l.natAbs ≠ b.natAbs := by
      intro b hb l hl
      exact natAbs_ne (fun e => (hbuf b hb).2.1 (e ▸ hl)) (fun e => (hbuf b hb).2.2 (e ▸ hl))
    have hI : Inv Bs W buf i s3 := by
      have h3 := B.inv
      refine ⟨h3.len, h3.mlen, h3.ile, h3.nz, h3.perm, h3.on, h3.off, h3.lt, h3.fls, h3.just.congr (fun _ _ => rfl) (fun l hl c zs h1 h2 => ?_) fun l hl h0 => ?_⟩
      · rcases h3.just.mem hl with ⟨h0, _⟩ | ⟨c', zs', m1, m2, _⟩
        · omega
        · have : c' = c := by omega
          subst this; exact ⟨m2, h2⟩
      · rcases h3.just.mem hl with ⟨_, h1⟩ | ⟨c', zs', k1, _⟩
        · cases h1
        · omega
    obtain ⟨i1, i2, i3, i4, i5, i6, i7⟩ := assumeAll_ok (bs := buf) hI (fun _ h => h) (by
      intro b hb l hl he
      rw [B.stk] at hl
      exact absurd he (hsame b hb l hl))
    obtain ⟨sa, hsa⟩ : ∃ sa, sa = s3.assumeAll buf := ⟨_, rfl⟩
    rw [← hsa] at h i1 i2 i3 i4 i5 i6 i7
    split at h
    · rename_i s5 hp
      injection h with h; subst h
      have hkept : kept sa.forced sa.stk = s.stk := by
        rw [i7, i2, B.forced, B.stk, kept_append (Nat.le_refl _)]
        unfold kept; simp
      rcases (prop_ok i1 (by rw [i7, B.forced, i2, B.stk, List.length_append]; omega) hp).1 with ⟨g, _⟩ | ⟨_, C⟩
      · exact absurd rfl g
      · have hstk : s5.stk = s.stk := C.stk.trans hkept
        have hrs : ∀ l ∈ s.stk, s5.reason l.natAbs = s3.reason l.natAbs := by
          intro l hl
          rw [C.rs l (hstk ▸ hl), i3]
          intro b hb
          exact (hsame b hb l hl).symm
        have hne : ∀ l ∈ s.stk, s3.reason l.natAbs ≠ 0 := by
          intro l hl h0
          rcases B.inv.just.mem (B.stk ▸ hl) with ⟨_, h1⟩ | ⟨c', zs', k1, _⟩
          · cases h1
          · omega
        have hnew : ∀ c : Nat, s5.mkd[c]? = some true → s3.mkd[c]? = some true ∨ (c < i ∧ ¬ Blk Bs s c) := by
          intro c hc
          rcases C.new c hc with h1 | ⟨h1, h2⟩
          · rw [i6] at h1; exact .inl h1
          · refine .inr ⟨h1, fun hb => h2 ?_⟩
            obtain ⟨b, t, k1, k2, k3, k4, k5⟩ := hb
            have : sa.reason t.natAbs = s.reason t.natAbs := by
              have e := hsame
              have k3' := k3
              rw [i3 _ fun b hb => ?_]
              · have := B.rs _ k3
                rw [Int.natAbs_neg] at this; exact this
              · have := hsame b hb _ k3
                rw [Int.natAbs_neg] at this; exact this.symm
            exact ⟨b, t, k1, k2, by rw [i2, B.stk]; exact List.mem_append_right _ k3, by rw [this]; exact k4, by rw [this]; exact k5⟩
        have hmono : ∀ c : Nat, s3.mkd[c]? = some true → s5.mkd[c]? = some true := fun c hc => C.mono c (by rw [i6]; exact hc)
        refine ⟨?_, hstk, by rw [C.forced, i7, B.forced], by rw [C.processed, i7, B.forced], fun l hl => (hrs l hl).trans (B.rs l hl), fun v c hc hW hb hv => ?_, fun c hc hW => ?_, fun c hc => ?_, fun j hj h1 v hv b hb => ?_, fun v hv => ?_⟩
        · have h5 := C.inv
          refine ⟨h5.len, h5.mlen, h5.ile, h5.nz, h5.perm, h5.on, h5.off, h5.lt, h5.fls, h5.just.congr (fun _ _ => rfl) (fun l hl c zs h1 h2 => ?_) fun l hl h0 => ?_⟩
          · rcases h5.just.mem hl with ⟨h0, _⟩ | ⟨c', zs', m1, m2, _⟩
            · omega
            · have : c' = c := by omega
              subst this; exact ⟨m2, h2⟩
          · rw [hstk] at hl
            rw [hrs l hl] at h0
            exact absurd h0 (hne l hl)
        · refine B.rw v c hc hW hb ?_
          rcases C.rw v c hv with h1 | h1
          · rcases i4 v with h2 | h2
            · rw [← h2]; exact h1
            · omega
          · exact absurd h1 hW
        · rw [C.cls c hW, i5, B.cls c hc hW]
        · rcases hnew c hc with h1 | h1
          · exact B.new c h1
          · exact .inr h1.2
        · by_cases hji : j = i
          · subst hji
            rw [hB] at hb; injection hb with hb; subst hb
            obtain ⟨l, hl, hlv⟩ := C.rup v hv
            exact ⟨l, (hbuf l hl).1, hlv⟩
          · rcases hnew j h1 with h2 | h2
            · exact B.sup j (by omega) h2 v (hv.le (Nat.le_refl _) hmono) b hb
            · omega
        · exact B.fin v (hv.le (Nat.le_refl _) hmono)
    · cases h

/-! ### deletions -/

theorem Good.of_stk {W' : Nat → Prop} {s s' : D} (h : Good Bs W i s) (hi : Inv Bs W' [] i s') (e1 : s'.stk = s.stk) (e2 : s'.processed = s.processed) (e3 : s'.reason = s.reason) (e4 : s'.mkd = s.mkd) : Good Bs W' i s' :=
  ⟨hi, by rw [e1, e2]; exact h.processed, by rw [e1, e3]; exact h.fresh, by rw [e4]; exact h.unmarked⟩

theorem del_ok {c : Nat} {s s1 : D} (G : Good Bs W i s) (h : s.fwdDel c = some s1) :
    ∃ W1, Good Bs W1 i s1 ∧ ∀ s2 s3, Back Bs W1 i i s1 s2 → s2.bwdDel c = some s3 → Back Bs W i i s s3 := by
  unfold D.fwdDel at h
  cases hb : s.cls[c]? with
  | none => rw [hb] at h; cases h
  | some b =>
    rw [hb] at h
    obtain ⟨b0, hb0, hp0⟩ := G.inv.perm c b hb
    have hlen : ∀ {W1 : Nat → Prop} {s2 : D}, Inv Bs W1 [] i s2 → ∃ b2, s2.cls[c]? = some b2 ∧ b2.length = b.length := by
      intro W1 s2 I
      have hlt : c < s2.cls.length := by rw [I.len]; exact (List.getElem?_eq_some_iff.1 hb0).1
      obtain ⟨b0', k1, k2⟩ := I.perm c _ (List.getElem?_eq_getElem hlt)
      rw [hb0] at k1; injection k1 with k1; subst k1
      exact ⟨_, List.getElem?_eq_getElem hlt, by rw [k2.length_eq, hp0.length_eq]⟩
    have short : b.length < 2 → s1 = s → ∃ W1, Good Bs W1 i s1 ∧ ∀ s2 s3, Back Bs W1 i i s1 s2 → s2.bwdDel c = some s3 → Back Bs W i i s s3 := by
      rintro hl rfl
      refine ⟨W, G, fun s2 s3 B hd => ?_⟩
      obtain ⟨b2, k1, k2⟩ := hlen B.inv
      unfold D.bwdDel at hd
      rw [k1] at hd
      match b2, k2 with
      | [], _ => injection hd with hd; subst hd; exact B
      | [_], _ => injection hd with hd; subst hd; exact B
      | _ :: _ :: _, k2 => simp at k2; omega
    match b with
    | [] => injection h with h; exact short (by decide) h.symm
    | [_] => injection h with h; exact short (by simp) h.symm
    | x :: y :: zs =>
      dsimp only at h
      split at h
      · rename_i hr
        injection h with h; subst h
        refine ⟨W, G, fun s2 s3 B hd => ?_⟩
        obtain ⟨l, hl, hlx⟩ := G.fresh x.natAbs (by omega)
        have hrl : s.reason l.natAbs = c + 1 := by rw [hlx]; exact hr
        have h2 : s2.reason l.natAbs = c + 1 := by rw [B.rs l hl]; exact hrl
        have hcx : ∃ zs', s2.cls[c]? = some (-l :: zs') := by
          rcases B.inv.just.mem (B.stk ▸ hl) with ⟨_, h1⟩ | ⟨c', zs', k1, _, k3, _⟩
          · cases h1
          · have : c' = c := by omega
            subst this; exact ⟨zs', k3⟩
        obtain ⟨zs', hz⟩ := hcx
        unfold D.bwdDel at hd
        rw [hz] at hd
        have h2' : s2.reason (-l).natAbs = c + 1 := by rw [Int.natAbs_neg]; exact h2
        match zs', hd with
        | [], hd => injection hd with hd; subst hd; exact B
        | z :: zs'', hd =>
          dsimp only at hd
          rw [if_pos h2'] at hd
          injection hd with hd; subst hd; exact B
      · rename_i hr
        obtain ⟨hW, I1⟩ := G.inv.remove hb (by simp) h
        obtain ⟨w, e, _⟩ := removeWatches_eq hb h
        have e1 : s1.stk = s.stk := by rw [e]
        have e3 : s1.reason = s.reason := by rw [e]
        have e4 : s1.mkd = s.mkd := by rw [e]
        have e5 : s1.cls = s.cls := by rw [e]
        refine ⟨fun d => W d ∧ d ≠ c, G.of_stk I1 e1 (by rw [e]) e3 e4, fun s2 s3 B hd => ?_⟩
        have hci : c < i := G.inv.lt c hW
        have hnW : ¬ (W c ∧ c ≠ c) := fun h => h.2 rfl
        have hc2 : s2.cls[c]? = some (x :: y :: zs) := by rw [B.cls c hci hnW, e5]; exact hb
        have hr2 : s2.reason x.natAbs ≠ c + 1 := by
          intro h2
          have := B.rw _ c hci hnW (fun b hb' => by
            rw [hb0] at hb'; injection hb' with hb'; rw [← hb', ← hp0.length_eq]; simp) h2
          rw [e3] at this
          exact hr this
        unfold D.bwdDel at hd
        rw [hc2] at hd
        dsimp only at hd
        rw [if_neg hr2] at hd
        have I3 := B.inv.add hnW hci hc2 (by simp) hd
        obtain ⟨w2, f, _⟩ := addWatches_eq hc2 hd
        have f1 : s3.stk = s2.stk := by rw [f]
        have f2 : s3.reason = s2.reason := by rw [f]
        have f3 : s3.mkd = s2.mkd := by rw [f]
        have f4 : s3.cls = s2.cls := by rw [f]
        have f5 : s3.forced = s2.forced := by rw [f]
        have f6 : s3.processed = s2.processed := by rw [f]
        refine ⟨I3.congrW fun d => ?_, ?_, ?_, ?_, ?_, ?_, ?_, ?_, ?_, ?_⟩
        · by_cases hdc : d = c
          · subst hdc; simp [hW]
          · simp [hdc]
        · rw [f1, B.stk, e1]
        · rw [f5, B.forced, e1]
        · rw [f6, B.processed, e1]
        · intro l hl; rw [f2, B.rs l (e1 ▸ hl), e3]
        · intro v d hd hWd hb' hv
          rw [f2] at hv
          have := B.rw v d hd (fun h => hWd h.1) hb' hv
          rw [e3] at this; exact this
        · intro d hd hWd; rw [f4, B.cls d hd (fun h => hWd h.1), e5]
        · intro d hd
          rw [f3] at hd
          rcases B.new d hd with h1 | h1
          · rw [e4] at h1; exact .inl h1
          · refine .inr fun hb => h1 ?_
            obtain ⟨b, t, k1, k2, k3, k4, k5⟩ := hb
            exact ⟨b, t, k1, k2, by rw [e1]; exact k3, by rw [e3]; exact k4, by rw [e3]; exact k5⟩
        · rw [f3]; exact B.sup
        · rw [f3]; exact B.fin

end

end Verif.Drup
