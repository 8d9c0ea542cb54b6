import Verif.Drup.Model
import Mathlib.Data.List.Basic
import Mathlib.Data.List.Perm.Basic
import Mathlib.Data.List.Count
import Mathlib.Tactic.Basic
/-!
# Lemmas on the DRUP check: lists, watches, marking, analysis
-/
namespace Verif.Drup

/-! ## lists -/

theorem upd_self {α β : Type} [DecidableEq α] (f : α → β) (a : α) (b : β) : upd f a b a = b := if_pos rfl
theorem upd_ne {α β : Type} [DecidableEq α] (f : α → β) {a x : α} (b : β) (h : x ≠ a) : upd f a b x = f x := if_neg h

theorem swapPop_perm {α : Type} {xs : List α} {p : Nat} {e : α} (h : xs[p]? = some e) : xs.Perm (e :: swapPop xs p) := by
  obtain ⟨hp, he⟩ := List.getElem?_eq_some_iff.1 h
  rcases List.eq_nil_or_concat xs with rfl | ⟨ys, z, rfl⟩
  · simp at hp
  · unfold swapPop
    simp only [List.concat_eq_append] at h hp he ⊢
    simp only [List.getLast?_append, List.getLast?_singleton, Option.some_or]
    by_cases hq : p < ys.length
    · rw [List.set_append_left _ _ hq, List.dropLast_concat]
      have he' : ys[p] = e := by rw [← he, List.getElem_append_left hq]
      have h1 : (ys[p] :: ys.eraseIdx p).Perm ys := List.getElem_cons_eraseIdx_perm hq
      have h2 : (ys.set p z).Perm (z :: ys.eraseIdx p) := List.set_perm_cons_eraseIdx hq z
      rw [he'] at h1
      refine (h1.symm.append_right [z]).trans ?_
      refine List.Perm.cons e ?_
      exact (List.perm_append_comm).trans h2.symm
    · have hq' : p = ys.length := by simp at hp; omega
      subst hq'
      have he' : z = e := by rw [← he]; simp
      subst he'
      have : (ys ++ [z]).set ys.length z = ys ++ [z] := by simp
      rw [this, List.dropLast_concat]
      exact List.perm_append_comm

theorem pick_some {fls : Int → Nat} {lit z : Int} : ∀ {zs zs' : List Int}, pick fls lit zs = some (z, zs') → fls z = 0 ∧ (lit :: zs).Perm (z :: zs')
  | [], _, h => by cases h
  | y :: zs, zs', h => by
    unfold pick at h
    split at h
    · rename_i hy; injection h with h; injection h with h1 h2; subst h1; subst h2; exact ⟨hy, List.Perm.swap _ _ _⟩
    · obtain ⟨r, hr, he⟩ := Option.map_eq_some_iff.1 h
      obtain ⟨r1, r2⟩ := r
      injection he with h1 h2
      dsimp only at h1 h2
      subst h1; subst h2
      obtain ⟨a, b⟩ := pick_some hr
      exact ⟨a, (List.Perm.swap _ _ _).trans ((b.cons y).trans (List.Perm.swap _ _ _))⟩

theorem pick_none {fls : Int → Nat} {lit : Int} : ∀ {zs : List Int}, pick fls lit zs = none → ∀ z ∈ zs, fls z ≠ 0
  | [], _, z, hz => by cases hz
  | y :: zs, h, z, hz => by
    unfold pick at h
    split at h
    · cases h
    · rename_i hy
      rcases List.mem_cons.1 hz with rfl | hz
      · exact hy
      · exact pick_none (Option.map_eq_none_iff.1 h) z hz

/-! ## the number of entries of a clause in a watch list -/

def cnt (s : D) (c : Nat) (l : Int) : Nat := (s.wl l).countP fun e => e.1 == c

theorem setBit_cnt {c d : Nat} : ∀ {w w' : List (Nat × Bool)}, setBit c w = some w' → w'.countP (fun e => e.1 == d) = w.countP (fun e => e.1 == d)
  | [], _, h => by cases h
  | e :: es, w', h => by
    unfold setBit at h
    split at h
    · injection h with h; subst h; simp [List.countP_cons]
    · obtain ⟨x, hx, rfl⟩ := Option.map_eq_some_iff.1 h
      simp [List.countP_cons, setBit_cnt hx]

theorem markWatch_eq {c : Nat} {l : Int} {s s' : D} (h : s.markWatch c l = some s') : ∃ w, s' = { s with wl := w } ∧ ∀ d k, cnt s' d k = cnt s d k := by
  obtain ⟨w, hw, rfl⟩ := Option.map_eq_some_iff.1 h
  refine ⟨_, rfl, fun d k => ?_⟩
  unfold cnt
  dsimp only
  by_cases hk : k = l
  · subst hk; rw [upd_self]; exact setBit_cnt hw
  · rw [upd_ne _ _ hk]

theorem markClause_eq {c : Nat} {lits body : List Int} {s s' : D} (hb : s.cls[c]? = some body) (hl : 2 ≤ body.length ∨ lits = []) (h : s.markClause c lits = some s') :
    ∃ w, s' = { s with mkd := s.mkd.set c true, wl := w, fls := fun l => if l ∈ lits then 3 else s.fls l } ∧ ∀ d k, cnt s' d k = cnt s d k := by
  unfold D.markClause at h
  split at h
  · rename_i hm
    injection h with h
    obtain ⟨hp, he⟩ := List.getElem?_eq_some_iff.1 hm
    have : s.mkd.set c true = s.mkd := by
      conv => rhs; rw [← List.set_getElem_self hp, he]
    subst h
    refine ⟨s.wl, ?_, fun _ _ => rfl⟩
    unfold D.set3
    rw [this]
  · dsimp only at h
    split at h
    · cases h
    · rename_i x y zs hc
      obtain ⟨s2, h2, rfl⟩ := Option.map_eq_some_iff.1 h
      obtain ⟨s1, h1, h2⟩ := Option.bind_eq_some_iff.1 h2
      obtain ⟨w1, e1, c1⟩ := markWatch_eq h1
      obtain ⟨w2, e2, c2⟩ := markWatch_eq h2
      refine ⟨w2, ?_, fun d k => ?_⟩
      · rw [e2, e1]; rfl
      · show cnt s2 d k = _
        rw [c2, c1]; rfl
    · rename_i hb' hc
      injection h with h; subst h
      refine ⟨s.wl, ?_, fun _ _ => rfl⟩
      rcases hl with hl | rfl
      · exfalso
        rw [hb] at hc
        injection hc with hc
        match body, hl with
        | x :: y :: zs, _ => exact hb' x y zs hc.symm
      · simp

/-! ## reasons -/

/-- every entry of the stack is an assumption or the negation of the first literal of a clause before `i` whose other literals are below -/
def Just (cls : List (List Int)) (reason : Nat → Nat) (L : List Int) (i : Nat) : List Int → Prop
  | [] => True
  | l :: rest => ((reason l.natAbs = 0 ∧ l ∈ L) ∨
      ∃ c zs, reason l.natAbs = c + 1 ∧ c < i ∧ cls[c]? = some (-l :: zs) ∧ (∀ z ∈ zs, z ∈ rest) ∧ l ∉ rest ∧ -l ∉ rest) ∧ Just cls reason L i rest

theorem Just.drop {cls : List (List Int)} {reason : Nat → Nat} {L : List Int} {i : Nat} : ∀ {A F : List Int}, Just cls reason L i (A ++ F) → Just cls reason L i F
  | [], _, h => h
  | _ :: A, _, h => Just.drop (A := A) h.2

theorem Just.both {cls : List (List Int)} {reason : Nat → Nat} {L : List Int} {i : Nat} {t : Int} : ∀ {st : List Int}, Just cls reason L i st → t ∈ st → -t ∈ st → t ≠ 0 → reason t.natAbs = 0
  | l :: rest, h, h1, h2, h0 => by
    rcases List.mem_cons.1 h1 with e | h4
    · rcases List.mem_cons.1 h2 with e2 | h3
      · omega
      · subst e
        rcases h.1 with ⟨a, _⟩ | ⟨c, zs, _, _, _, _, _, hn⟩
        · exact a
        · exact absurd h3 hn
    · rcases List.mem_cons.1 h2 with e2 | h2
      · subst e2
        rcases h.1 with ⟨a, _⟩ | ⟨c, zs, _, _, _, _, _, hn⟩
        · rw [Int.natAbs_neg] at a; exact a
        · rw [Int.neg_neg] at hn; exact absurd h4 hn
      · exact Just.both h.2 h4 h2 h0

theorem Just.mem {cls : List (List Int)} {reason : Nat → Nat} {L : List Int} {i : Nat} {l : Int} : ∀ {st : List Int}, Just cls reason L i st → l ∈ st →
    (reason l.natAbs = 0 ∧ l ∈ L) ∨ ∃ c zs, reason l.natAbs = c + 1 ∧ c < i ∧ cls[c]? = some (-l :: zs) ∧ ∀ z ∈ zs, z ∈ st
  | k :: rest, h, hl => by
    rcases List.mem_cons.1 hl with rfl | hl
    · rcases h.1 with a | ⟨c, zs, h1, h2, h3, h4, _⟩
      · exact .inl a
      · exact .inr ⟨c, zs, h1, h2, h3, fun z hz => List.mem_cons_of_mem _ (h4 z hz)⟩
    · rcases Just.mem h.2 hl with a | ⟨c, zs, h1, h2, h3, h4⟩
      · exact .inl a
      · exact .inr ⟨c, zs, h1, h2, h3, fun z hz => List.mem_cons_of_mem _ (h4 z hz)⟩

/-- other clauses, reasons, assumptions, bounds -/
theorem Just.congr {cls cls' : List (List Int)} {reason reason' : Nat → Nat} {L L' : List Int} {i i' : Nat} : ∀ {st : List Int}, Just cls reason L i st →
    (∀ l ∈ st, reason' l.natAbs = reason l.natAbs) →
    (∀ l ∈ st, ∀ c zs, reason l.natAbs = c + 1 → cls[c]? = some (-l :: zs) → c < i' ∧ cls'[c]? = some (-l :: zs)) →
    (∀ l ∈ st, reason l.natAbs = 0 → l ∈ L') → Just cls' reason' L' i' st
  | [], _, _, _, _ => trivial
  | l :: rest, h, hr, hc, hL => by
    refine ⟨?_, Just.congr h.2 (fun l hl => hr l (List.mem_cons_of_mem _ hl)) (fun l hl => hc l (List.mem_cons_of_mem _ hl)) fun l hl => hL l (List.mem_cons_of_mem _ hl)⟩
    rw [hr l List.mem_cons_self]
    rcases h.1 with ⟨a, _⟩ | ⟨c, zs, h1, h2, h3, h4, h5⟩
    · exact .inl ⟨a, hL l List.mem_cons_self a⟩
    · obtain ⟨g1, g2⟩ := hc l List.mem_cons_self c zs h1 h3
      exact .inr ⟨c, zs, h1, g1, g2, h4, h5⟩

/-! ## truth -/

/-- the value of a literal -/
def val (v : Nat → Bool) (l : Int) : Bool := if 0 < l then v l.natAbs else !v l.natAbs

theorem val_neg (v : Nat → Bool) {l : Int} (h : l ≠ 0) : val v (-l) = !val v l := by
  unfold val
  rw [Int.natAbs_neg]
  by_cases hl : 0 < l
  · rw [if_pos hl, if_neg (by omega)]
  · rw [if_neg hl, if_pos (by omega), Bool.not_not]

/-- a clause is true -/
def Tr (v : Nat → Bool) (b : List Int) : Prop := ∃ l ∈ b, val v l = true

/-! ## the analysis -/

/-- the part of the stack which stays -/
def kept (n : Nat) (st : List Int) : List Int := st.drop (st.length - n)

theorem kept_cons_lt {n : Nat} {l : Int} {st : List Int} (h : st.length < n) : kept n (l :: st) = l :: kept n st := by
  unfold kept
  rw [List.length_cons, Nat.sub_eq_zero_of_le (by omega : st.length + 1 ≤ n), Nat.sub_eq_zero_of_le (by omega : st.length ≤ n)]
  rfl

theorem kept_cons_ge {n : Nat} {l : Int} {st : List Int} (h : ¬ st.length < n) : kept n (l :: st) = kept n st := by
  unfold kept
  rw [List.length_cons, (by omega : st.length + 1 - n = st.length - n + 1)]
  rfl

structure AnaOk (L : List Int) (i : Nat) (st : List Int) (s s' : D) : Prop where
  cls : s'.cls = s.cls
  stk : s'.stk = s.stk
  reason : s'.reason = s.reason
  forced : s'.forced = s.forced
  cnt : ∀ d k, cnt s' d k = cnt s d k
  mlen : s'.mkd.length = s.mkd.length
  mono : ∀ c : Nat, s.mkd[c]? = some true → s'.mkd[c]? = some true
  new : ∀ c : Nat, s'.mkd[c]? = some true → s.mkd[c]? = some true ∨ ∃ l ∈ st, s.reason l.natAbs = c + 1
  fls1 : ∀ l, s'.fls l ≠ 0 → l ∈ kept s.forced st ∨ (s.fls l ≠ 0 ∧ l ∉ st)
  fls2 : ∀ l ∈ kept s.forced st, s'.fls l ≠ 0
  fls3 : ∀ l, l ∉ st → s.fls l ≠ 0 → s'.fls l ≠ 0
  sem : ∀ v, (∀ c < i, s'.mkd[c]? = some true → ∀ b, s.cls[c]? = some b → Tr v b) → (∀ l ∈ L, val v l = false) → ∀ l ∈ st, s.fls l = 3 → val v l = false

theorem kept_sub {n : Nat} {st : List Int} {l : Int} (h : l ∈ kept n st) : l ∈ st := List.mem_of_mem_drop h

theorem analyzeGo_ok {L : List Int} {i : Nat} : ∀ {st : List Int} {s s' : D}, Just s.cls s.reason L i st → (∀ c < i, c < s.mkd.length) →
    (∀ b ∈ s.cls, ∀ l ∈ b, l ≠ 0) → s.analyzeGo st = some s' → AnaOk L i st s s'
  | [], s, s', _, _, _, h => by
    injection h with h; subst h
    exact ⟨rfl, rfl, rfl, rfl, fun _ _ => rfl, rfl, fun _ h => h, fun _ h => .inl h, fun l h => .inr ⟨h, by simp⟩, fun l h => by simp [kept] at h, fun l _ h => h, fun v _ _ l hl => by cases hl⟩
  | l :: rest, s, s', hj, hm, hz, h => by
    unfold D.analyzeGo at h
    dsimp only at h
    -- the state after the clause is marked
    have key : ∀ s1 : D, s1.cls = s.cls → s1.stk = s.stk → s1.reason = s.reason → s1.forced = s.forced → (∀ d k, Drup.cnt s1 d k = Drup.cnt s d k) →
        s1.mkd.length = s.mkd.length → (∀ c : Nat, s.mkd[c]? = some true → s1.mkd[c]? = some true) →
        (∀ c : Nat, s1.mkd[c]? = some true → s.mkd[c]? = some true ∨ s.reason l.natAbs = c + 1) →
        (∀ k, s.fls k ≠ 0 → s1.fls k ≠ 0) → (∀ k, s1.fls k ≠ 0 → s.fls k ≠ 0 ∨ k ∈ rest) → (∀ k, s.fls k = 3 → s1.fls k = 3) →
        (s.fls l = 3 → (s.reason l.natAbs = 0 ∧ l ∈ L) ∨ ∃ c zs, c < i ∧ s1.mkd[c]? = some true ∧ s.cls[c]? = some (-l :: zs) ∧ (∀ z ∈ zs, z ∈ rest ∧ s1.fls z = 3) ∧ l ∉ rest) →
        D.analyzeGo rest { s1 with fls := upd s1.fls l (if rest.length < s1.forced then 1 else 0) } = some s' → AnaOk L i (l :: rest) s s' := by
      intro s1 e1 e2 e3 e4 e5 e6 e7 e8 e9 e10 e11 e12 h
      obtain ⟨s2, hs2⟩ : ∃ s2, s2 = { s1 with fls := upd s1.fls l (if rest.length < s1.forced then 1 else 0) } := ⟨_, rfl⟩
      rw [← hs2] at h
      have k1 : s2.cls = s.cls := by rw [hs2]; exact e1
      have k2 : s2.stk = s.stk := by rw [hs2]; exact e2
      have k3 : s2.reason = s.reason := by rw [hs2]; exact e3
      have k4 : s2.forced = s.forced := by rw [hs2]; exact e4
      have k5 : ∀ d k, Drup.cnt s2 d k = Drup.cnt s d k := by intro d k; rw [hs2]; exact e5 d k
      have k6 : s2.mkd = s1.mkd := by rw [hs2]
      have k7 : s2.fls = upd s1.fls l (if rest.length < s.forced then 1 else 0) := by rw [hs2, ← e4]
      have ih := analyzeGo_ok (st := rest) (s := s2) (s' := s') (by rw [k1, k3]; exact hj.2) (by rw [k6, e6]; exact hm) (by rw [k1]; exact hz) h
      have f_ne : ∀ k, k ≠ l → s2.fls k = s1.fls k := by intro k hk; rw [k7, upd_ne _ _ hk]
      refine ⟨ih.cls.trans k1, ih.stk.trans k2, ih.reason.trans k3, ih.forced.trans k4, fun d k => (ih.cnt d k).trans (k5 d k), by rw [ih.mlen, k6, e6],
        fun c hc => ih.mono c (by rw [k6]; exact e7 c hc), fun c hc => ?_, fun k hk => ?_, fun k hk => ?_, fun k hk hf => ?_, fun v hv hL k hk hf => ?_⟩
      · rcases ih.new c hc with h1 | ⟨m, hm1, hm2⟩
        · rw [k6] at h1
          rcases e8 c h1 with h1 | h1
          · exact .inl h1
          · exact .inr ⟨l, List.mem_cons_self, h1⟩
        · rw [k3] at hm2
          exact .inr ⟨m, List.mem_cons_of_mem _ hm1, hm2⟩
      · rcases ih.fls1 k hk with h1 | ⟨h1, h2⟩
        · rw [k4] at h1
          left
          by_cases hr : rest.length < s.forced
          · rw [kept_cons_lt hr]; exact List.mem_cons_of_mem _ h1
          · rw [kept_cons_ge hr]; exact h1
        · by_cases hkl : k = l
          · subst hkl
            rw [k7, upd_self] at h1
            by_cases hr : rest.length < s.forced
            · left; rw [kept_cons_lt hr]; exact List.mem_cons_self
            · rw [if_neg hr] at h1; exact absurd rfl h1
          · rw [f_ne k hkl] at h1
            rcases e10 k h1 with h1 | h1
            · exact .inr ⟨h1, by simp [hkl, h2]⟩
            · exact absurd h1 h2
      · by_cases hr : rest.length < s.forced
        · rw [kept_cons_lt hr] at hk
          by_cases hk2 : k ∈ kept s.forced rest
          · exact ih.fls2 k (by rw [k4]; exact hk2)
          · rcases List.mem_cons.1 hk with rfl | hk
            · have : k ∉ rest := by
                unfold kept at hk2
                rw [Nat.sub_eq_zero_of_le (by omega : rest.length ≤ s.forced)] at hk2
                exact hk2
              refine ih.fls3 k this ?_
              rw [k7, upd_self, if_pos hr]; decide
            · exact absurd hk hk2
        · rw [kept_cons_ge hr] at hk
          exact ih.fls2 k (by rw [k4]; exact hk)
      · rw [List.mem_cons, not_or] at hk
        refine ih.fls3 k hk.2 ?_
        rw [f_ne k hk.1]
        exact e9 k hf
      · have IH := ih.sem v (fun c hc h1 b hb => hv c hc h1 b (by rw [← k1]; exact hb)) hL
        have hlit : s.fls l = 3 → val v l = false := by
          intro h3
          rcases e12 h3 with ⟨_, hl⟩ | ⟨c, zs, hc, h1, h2, h4, h5⟩
          · exact hL l hl
          · obtain ⟨x, hx, hxv⟩ := hv c hc (ih.mono c (by rw [k6]; exact h1)) _ h2
            have hl0 : -l ≠ 0 := hz _ (List.mem_of_getElem? h2) _ List.mem_cons_self
            rcases List.mem_cons.1 hx with rfl | hx
            · rw [val_neg v (by omega)] at hxv
              revert hxv; cases val v l <;> decide
            · exfalso
              obtain ⟨g1, g2⟩ := h4 x hx
              have hne : x ≠ l := fun e => h5 (e ▸ g1)
              have := IH x g1 (by rw [f_ne x hne]; exact g2)
              rw [this] at hxv; cases hxv
        by_cases hkl : k = l
        · subst hkl; exact hlit hf
        · rcases List.mem_cons.1 hk with e | hk
          · exact absurd e hkl
          · exact IH k hk (by rw [f_ne k hkl]; exact e11 k hf)
    by_cases hc : s.fls l = 3 ∧ s.reason l.natAbs ≠ 0
    · rw [if_pos hc] at h
      rcases hj.1 with ⟨h0, _⟩ | ⟨c, zs, h1, h2, h3, h4, h5, h6⟩
      · exact absurd h0 hc.2
      · rw [h1, Nat.add_sub_cancel] at h
        have hg : s.cls.getD c [] = -l :: zs := by rw [List.getD_eq_getElem?_getD, h3]; rfl
        rw [hg, List.tail_cons] at h
        split at h
        · cases h
        · rename_i s1 hs1
          obtain ⟨w, e, hcnt⟩ := markClause_eq h3 (by
            cases zs with
            | nil => exact .inr rfl
            | cons z zs => left; simp) hs1
          have hset : ∀ d : Nat, (s.mkd.set c true)[d]? = some true ↔ s.mkd[d]? = some true ∨ d = c := by
            intro d
            rw [List.getElem?_set]
            split
            · rename_i hcd; subst hcd
              rw [if_pos (hm c h2)]; simp
            · rename_i hcd
              exact ⟨.inl, fun h => h.resolve_right fun e => hcd e.symm⟩
          have em : s1.mkd = s.mkd.set c true := by rw [e]
          have ef : s1.fls = fun k => if k ∈ zs then 3 else s.fls k := by rw [e]
          refine key s1 (by rw [e]) (by rw [e]) (by rw [e]) (by rw [e]) hcnt (by rw [em, List.length_set]) (fun d hd => ?_) (fun d hd => ?_) (fun k hk => ?_) (fun k hk => ?_) (fun k hk => ?_)
            (fun _ => .inr ⟨c, zs, h2, by rw [em]; exact (hset c).2 (.inr rfl), h3, fun z hz => ⟨h4 z hz, by rw [ef]; exact if_pos hz⟩, h5⟩) h
          · rw [em]; exact (hset d).2 (.inl hd)
          · rw [em] at hd
            rcases (hset d).1 hd with hd | rfl
            · exact .inl hd
            · exact .inr h1
          · rw [ef]; dsimp only; split
            · decide
            · exact hk
          · rw [ef] at hk; dsimp only at hk; split at hk
            · rename_i hz; exact .inr (h4 k hz)
            · exact .inl hk
          · rw [ef]; dsimp only; split
            · rfl
            · exact hk
    · rw [if_neg hc] at h
      refine key s rfl rfl rfl rfl (fun _ _ => rfl) rfl (fun _ h => h) (fun _ h => .inl h) (fun _ h => h) (fun _ h => .inl h) (fun _ h => h) (fun h3 => ?_) h
      rcases hj.1 with h0 | ⟨c, zs, h1, _⟩
      · exact .inl h0
      · exact absurd ⟨h3, by omega⟩ hc

end Verif.Drup
