import Verif.Bdd.Inv
/-
The recursive operations compute the right functions, whatever is in the caches, with garbage collections in between.
-/
namespace Verif.Bdd

/-- constants lie below all variables (kernel.go:281-282) -/
def Lv (k : K) : Prop := (k.nd 0).lvl = k.n ∧ (k.nd 1).lvl = k.n

/-- level of the root -/
def T.top (n : Nat) : T → Nat
  | .leaf _ => n
  | .node v _ _ => v

theorem Rep.lvl {k : K} (hv : Lv k) {i : Nat} {t : T} (h : Rep k.nd i t) : (k.nd i).lvl = t.top k.n := by
  cases h with
  | ff => exact hv.1
  | tt => exact hv.2
  | node _ _ _ _ => rfl

theorem Ord.top {n m : Nat} {t : T} (h : Ord n m t) (hm : m ≤ n) : m ≤ t.top n := by
  cases t with
  | leaf b => exact hm
  | node v l h' => exact h.1

theorem Ord.of_top {n m : Nat} {t : T} (h : Ord n m t) : Ord n (t.top n) t := by
  cases t with
  | leaf b => trivial
  | node v l h' => exact ⟨Nat.le_refl _, h.2⟩

theorem Keep.lv {k k' : K} (h : Keep k k') (hv : Lv k) : Lv k' := by
  have h0 := (core_iff.1 (h.core 0 (.inl (by omega)))).1
  have h1 := (core_iff.1 (h.core 1 (.inl (by omega)))).1
  exact ⟨by rw [h0, h.n]; exact hv.1, by rw [h1, h.n]; exact hv.2⟩

theorem Inv.setStack {P : Par} {k : K} (hi : Inv P k) {S : List Nat} (hs : ∀ i ∈ S, 2 ≤ i → (k.nd i).low ≠ none) :
    Inv P { k with stack := S } :=
  ⟨hi.sz, hi.live, hi.uniq, hi.bmem, hi.blive, hi.fmem, hi.fnd, hi.rlive, hs, hi.ap, hi.qu, hi.mi⟩

theorem Reach.mono {nd : Nat → Node} {R R' : Nat → Prop} (h : ∀ i, R i → R' i) {i : Nat} (hr : Reach nd R i) :
    Reach nd R' i := by
  induction hr with
  | root h1 => exact .root (h _ h1)
  | low _ h2 h3 ih => exact .low ih h2 h3
  | high _ h2 h3 ih => exact .high ih h2 h3

theorem Prot.push {k : K} {i a : Nat} (h : Prot k i) : Prot { k with stack := a :: k.stack } i :=
  h.imp id fun h => h.mono fun _ hr => hr.imp (List.mem_cons_of_mem _) id

theorem Prot.top {k : K} {a : Nat} : Prot { k with stack := a :: k.stack } a :=
  .inr (.root (.inl List.mem_cons_self))

theorem Prot.pop {k : K} {i : Nat} {S S' : List Nat} (hs : ∀ x ∈ S, x ∈ S') (h : Prot { k with stack := S } i) :
    Prot { k with stack := S' } i :=
  h.imp id fun h => h.mono fun _ hr => hr.imp (hs _) id

theorem push_eq {k : K} {i : Nat} (h : k.stack.length < 2 * k.n + 4) : push k i = some { k with stack := i :: k.stack } := by
  unfold push
  rw [if_pos h]

/-- push, run, take away again -/
theorem Keep.push_pop {k k1 k3 : K} {a : Nat} (h : Keep k k1) (g : Keep { k1 with stack := a :: k1.stack } k3) :
    Keep k { k3 with stack := k1.stack } :=
  ⟨g.n.trans h.n, h.stack, fun i => (g.refs i).trans (h.refs i),
    fun i hp => (g.core i (h.prot hp).push).trans (h.core i hp), g.vars.trans h.vars, g.qset.trans h.qset,
    g.qid.trans h.qid, g.qlast.trans h.qlast, g.heap.trans h.heap, Nat.le_trans h.gcs g.gcs, h.surv.trans g.surv⟩

theorem pushMake_spec {P : Par} {k : K} (hg : ∀ s, s < P.grow s) (hi : Inv P k) {S : List Nat} {a b : Nat}
    (hs : k.stack = a :: S) (hlen : k.stack.length < 2 * k.n + 4) {ta tb : T} (ha : Rep k.nd a ta) (hb : Rep k.nd b tb)
    {lvl : K → Nat} {v : Nat} (hlv : lvl { k with stack := b :: k.stack } = v) (hn : v < k.n)
    (oa : Ord k.n (v + 1) ta) (ob : Ord k.n (v + 1) tb) :
    ∃ x k' t, pushMake P k b lvl = some (x, k') ∧ Inv P k' ∧ Keep { k with stack := S } k' ∧ Rep k'.nd x t ∧
      Ord k.n v t ∧ ∀ ρ, t.eval ρ = if ρ v then tb.eval ρ else ta.eval ρ := by
  have hi1 : Inv P { k with stack := b :: k.stack } := hi.setStack fun i hm h2 => by
    rcases List.mem_cons.1 hm with rfl | hm
    · exact hb.live h2
    · exact hi.slive i hm h2
  have pa : Prot { k with stack := b :: k.stack } a := .inr (.root (.inl (by simp [hs])))
  have pb : Prot { k with stack := b :: k.stack } b := .top
  obtain ⟨x, k', t, m1, m2, m3, m4, m5, m6⟩ := makeNode_spec hg hi1 pa pb ha hb hn oa ob
  have m3s : k'.stack = b :: a :: S := by rw [m3.stack, ← hs]
  refine ⟨x, pop2 k', t, ?_, ?_, ?_, m4, m5, m6⟩
  · unfold pushMake
    rw [push_eq hlen]
    have r2 : readRef { k with stack := b :: k.stack } 2 = some a := by simp [readRef, hs]
    have r1 : readRef { k with stack := b :: k.stack } 1 = some b := by simp [readRef]
    simp only [Option.bind_eq_bind, Option.bind_some, r1, r2, hlv, m1]
    rfl
  · exact m2.setStack fun i hm h2 => m2.slive i (List.mem_of_mem_drop hm) h2
  · refine ⟨m3.n, by simp [pop2, m3s], m3.refs, fun i hp => m3.core i (hp.pop ?_), m3.vars, m3.qset, m3.qid, m3.qlast,
      m3.heap, m3.gcs, m3.surv⟩
    intro x hx
    simp [hs, hx]

theorem shortcut_spec {nd : Nat → Node} {op : Bop} {l r x : Nat} (h : shortcut op l r = some x) {tl tr : T}
    (hl : Rep nd l tl) (hr : Rep nd r tr) : ∃ t, Rep nd x t ∧ (t = tl ∨ t = tr ∨ t = .leaf (x == 1)) ∧
      ∀ ρ, t.eval ρ = op.f (tl.eval ρ) (tr.eval ρ) := by
  have z : ∀ {i t}, Rep nd i t → i = 0 → t = .leaf false := fun h e => by subst e; exact h.lt2 (by omega)
  have o : ∀ {i t}, Rep nd i t → i = 1 → t = .leaf true := fun h e => by subst e; exact h.lt2 (by omega)
  cases op with
  | and =>
    simp only [shortcut] at h
    by_cases h1 : l = r
    · rw [if_pos h1] at h; cases h; subst h1
      exact ⟨tl, hl, .inl rfl, fun ρ => by rw [hr.fun hl]; simp [Bop.f]⟩
    · rw [if_neg h1] at h
      by_cases h2 : l = 0 ∨ r = 0
      · rw [if_pos h2] at h; cases h
        refine ⟨_, .ff, .inr (.inr rfl), fun ρ => ?_⟩
        rcases h2 with h2 | h2
        · rw [z hl h2]; rfl
        · rw [z hr h2]; simp [Bop.f, T.eval]
      · rw [if_neg h2] at h
        by_cases h3 : l = 1
        · rw [if_pos h3] at h; cases h
          exact ⟨tr, hr, .inr (.inl rfl), fun ρ => by rw [o hl h3]; rfl⟩
        · rw [if_neg h3] at h
          by_cases h4 : r = 1
          · rw [if_pos h4] at h; cases h
            exact ⟨tl, hl, .inl rfl, fun ρ => by rw [o hr h4]; simp [Bop.f, T.eval]⟩
          · rw [if_neg h4] at h; cases h
  | or =>
    simp only [shortcut] at h
    by_cases h1 : l = r
    · rw [if_pos h1] at h; cases h; subst h1
      exact ⟨tl, hl, .inl rfl, fun ρ => by rw [hr.fun hl]; simp [Bop.f]⟩
    · rw [if_neg h1] at h
      by_cases h2 : l = 1 ∨ r = 1
      · rw [if_pos h2] at h; cases h
        refine ⟨_, .tt, .inr (.inr rfl), fun ρ => ?_⟩
        rcases h2 with h2 | h2
        · rw [o hl h2]; rfl
        · rw [o hr h2]; simp [Bop.f, T.eval]
      · rw [if_neg h2] at h
        by_cases h3 : l = 0
        · rw [if_pos h3] at h; cases h
          exact ⟨tr, hr, .inr (.inl rfl), fun ρ => by rw [z hl h3]; rfl⟩
        · rw [if_neg h3] at h
          by_cases h4 : r = 0
          · rw [if_pos h4] at h; cases h
            exact ⟨tl, hl, .inl rfl, fun ρ => by rw [z hr h4]; simp [Bop.f, T.eval]⟩
          · rw [if_neg h4] at h; cases h
  | imp =>
    simp only [shortcut] at h
    by_cases h1 : l = 0
    · rw [if_pos h1] at h; cases h
      exact ⟨_, .tt, .inr (.inr rfl), fun ρ => by rw [z hl h1]; rfl⟩
    · rw [if_neg h1] at h
      by_cases h2 : l = 1
      · rw [if_pos h2] at h; cases h
        exact ⟨tr, hr, .inr (.inl rfl), fun ρ => by rw [o hl h2]; rfl⟩
      · rw [if_neg h2] at h
        by_cases h3 : r = 1
        · rw [if_pos h3] at h; cases h
          exact ⟨_, .tt, .inr (.inr rfl), fun ρ => by rw [o hr h3]; simp [Bop.f, T.eval]⟩
        · rw [if_neg h3] at h; cases h
  | equiv => cases h

theorem tt_spec (op : Bop) {nd : Nat → Node} {l r : Nat} {tl tr : T} (hl : Rep nd l tl) (hr : Rep nd r tr)
    (h1 : l < 2) (h2 : r < 2) : op.tt (l * 2 + r) < 2 ∧
      ∀ ρ : Nat → Bool, (op.tt (l * 2 + r) == 1) = op.f (tl.eval ρ) (tr.eval ρ) := by
  rw [hl.lt2 h1, hr.lt2 h2]
  have a : l = 0 ∨ l = 1 := by omega
  have b : r = 0 ∨ r = 1 := by omega
  rcases a with rfl | rfl <;> rcases b with rfl | rfl <;> cases op <;> exact ⟨by decide, fun ρ => rfl⟩

theorem Inv.setApply {P : Par} {k : K} (hi : Inv P k) {s : Nat} {e : Entry} (he : ApOk k.nd e) :
    Inv P { k with apply := upd k.apply s e } :=
  ⟨hi.sz, hi.live, hi.uniq, hi.bmem, hi.blive, hi.fmem, hi.fnd, hi.rlive, hi.slive, fun s' => by
    by_cases h : s' = s
    · subst h; simp only [upd_self]; exact he
    · simp only [upd_ne _ _ h]; exact hi.ap s', hi.qu, hi.mi⟩

theorem Inv.setQuant {P : Par} {k : K} (hi : Inv P k) {s : Nat} {e : Entry} (he : QuOk k.nd e) :
    Inv P { k with quant := upd k.quant s e } :=
  ⟨hi.sz, hi.live, hi.uniq, hi.bmem, hi.blive, hi.fmem, hi.fnd, hi.rlive, hi.slive, hi.ap, fun s' => by
    by_cases h : s' = s
    · subst h; simp only [upd_self]; exact he
    · simp only [upd_ne _ _ h]; exact hi.qu s', hi.mi⟩

theorem Inv.setMisc {P : Par} {k : K} (hi : Inv P k) {s : Nat} {e : Entry} (he : MiOk k.nd e) :
    Inv P { k with misc := upd k.misc s e } :=
  ⟨hi.sz, hi.live, hi.uniq, hi.bmem, hi.blive, hi.fmem, hi.fnd, hi.rlive, hi.slive, hi.ap, hi.qu, fun s' => by
    by_cases h : s' = s
    · subst h; simp only [upd_self]; exact he
    · simp only [upd_ne _ _ h]; exact hi.mi s'⟩

theorem Bop.v_inj {a b : Bop} (h : a.v = b.v) : a = b := by cases a <;> cases b <;> first | rfl | cases h
theorem Bop.v_ne (a : Bop) : a.v ≠ notV := by cases a <;> decide

/-- the part of a tree below level `v` -/
def T.lo (v : Nat) : T → T
  | .node w l h => if w = v then l else .node w l h
  | t => t
def T.hi (v : Nat) : T → T
  | .node w l h => if w = v then h else .node w l h
  | t => t

theorem Ord.split {n v : Nat} {t : T} (h : Ord n v t) : Ord n (v + 1) (t.lo v) ∧ Ord n (v + 1) (t.hi v) ∧
    ∀ ρ, t.eval ρ = if ρ v then (t.hi v).eval ρ else (t.lo v).eval ρ := by
  cases t with
  | leaf b => exact ⟨trivial, trivial, fun ρ => by simp [T.lo, T.hi, T.eval]⟩
  | node w l h' =>
    obtain ⟨h1, h2, h3, h4, h5⟩ := h
    by_cases hw : w = v
    · subst hw
      simp only [T.lo, T.hi, if_pos]
      exact ⟨h4, h5, fun ρ => rfl⟩
    · simp only [T.lo, T.hi, if_neg hw]
      have : Ord n (v + 1) (.node w l h') := ⟨by omega, h2, h3, h4, h5⟩
      exact ⟨this, this, fun ρ => by split <;> rfl⟩

/-- the low successor if the node lies at level `v`, else the node itself -/
theorem step_low {P : Par} {k : K} (hv : Lv k) {i v : Nat} {t : T} (hr : Rep k.nd i t) (hp : Prot k i)
    (ho : Ord k.n v t) (hn : v < k.n) {d : Bool} (hd : d = decide ((k.nd i).lvl = v)) :
    ∃ j, lowIf k d i = some j ∧ Rep k.nd j (t.lo v) ∧ Prot k j := by
  rw [hr.lvl hv] at hd
  cases t with
  | leaf b =>
    have : ¬ (T.leaf b).top k.n = v := by simp only [T.top]; omega
    rw [decide_eq_false this] at hd
    subst hd
    exact ⟨i, rfl, hr, hp⟩
  | node w l h =>
    have h2 : 2 ≤ i := by
      by_cases h2 : 2 ≤ i
      · exact h2
      · have := hr.lt2 (by omega); cases this
    by_cases hw : w = v
    · subst hw
      rw [decide_eq_true (by rfl)] at hd
      subst hd
      obtain ⟨lo, l', h', e1, e2, e3, e4⟩ := hr.ge2 h2
      injection e4 with e4 e5 e6
      subst e5 e6
      exact ⟨lo, e1, by simpa [T.lo] using e2, hp.low h2 e1⟩
    · rw [decide_eq_false (show ¬ (T.node w l h).top k.n = v from hw)] at hd
      subst hd
      exact ⟨i, rfl, by simpa [T.lo, hw] using hr, hp⟩

theorem step_high {P : Par} {k : K} (hv : Lv k) {i v : Nat} {t : T} (hr : Rep k.nd i t) (hp : Prot k i)
    (ho : Ord k.n v t) (hn : v < k.n) {d : Bool} (hd : d = decide ((k.nd i).lvl = v)) :
    Rep k.nd (highIf k d i) (t.hi v) ∧ Prot k (highIf k d i) := by
  rw [hr.lvl hv] at hd
  cases t with
  | leaf b =>
    have : ¬ (T.leaf b).top k.n = v := by simp only [T.top]; omega
    rw [decide_eq_false this] at hd
    subst hd
    exact ⟨hr, hp⟩
  | node w l h =>
    have h2 : 2 ≤ i := by
      by_cases h2 : 2 ≤ i
      · exact h2
      · have := hr.lt2 (by omega); cases this
    by_cases hw : w = v
    · subst hw
      rw [decide_eq_true (by rfl)] at hd
      subst hd
      obtain ⟨lo, l', h', e1, e2, e3, e4⟩ := hr.ge2 h2
      injection e4 with e4 e5 e6
      subst e5 e6
      exact ⟨by simpa [T.hi, highIf] using e3, hp.high h2 e1⟩
    · rw [decide_eq_false (show ¬ (T.node w l h).top k.n = v from hw)] at hd
      subst hd
      exact ⟨by simpa [T.hi, highIf, hw] using hr, hp⟩

theorem applyRec_spec {P : Par} (hg : ∀ s, s < P.grow s) (op : Bop) : ∀ {f : Nat} {k : K} {l r m : Nat} {tl tr : T},
    Inv P k → Lv k → Prot k l → Prot k r → Rep k.nd l tl → Rep k.nd r tr → Ord k.n m tl → Ord k.n m tr →
    k.n < f + m → m ≤ k.n → k.stack.length ≤ 2 * m →
    ∃ x k' t, applyRec P op f k l r = some (x, k') ∧ Inv P k' ∧ Keep k k' ∧ Rep k'.nd x t ∧ Ord k.n m t ∧
      ∀ ρ, t.eval ρ = op.f (tl.eval ρ) (tr.eval ρ)
  | 0, k, l, r, m, tl, tr, _, _, _, _, _, _, _, _, hf, hm, _ => by omega
  | f + 1, k, l, r, m, tl, tr, hi, hv, pl, pr, rl, rr, ol, or', hf, hm, hst => by
    unfold applyRec
    cases hs : shortcut op l r with
    | some x =>
      obtain ⟨t, t1, t2, t3⟩ := shortcut_spec hs rl rr
      refine ⟨x, k, t, rfl, hi, .refl k, t1, ?_, t3⟩
      rcases t2 with rfl | rfl | rfl
      · exact ol
      · exact or'
      · trivial
    | none =>
      dsimp only
      by_cases hc : l < 2 ∧ r < 2
      · rw [if_pos hc]
        obtain ⟨c1, c2⟩ := tt_spec op rl rr hc.1 hc.2
        exact ⟨_, k, _, rfl, hi, .refl k, .leaf c1, trivial, c2⟩
      · rw [if_neg hc]
        -- the result does not depend on the levels above
        have hord : ∀ {k' : K} {x : Nat} {t : T}, Inv P k' → k'.n = k.n → Rep k'.nd x t →
            (∀ ρ, t.eval ρ = op.f (tl.eval ρ) (tr.eval ρ)) → Ord k.n m t := fun {k' x t} hi' hn' hx hev => by
          have := hi'.ord hx
          rw [hn'] at this
          refine this.of_indep fun ρ σ hh => ?_
          rw [hev, hev, ol.agree fun v h1 _ => hh v h1, or'.agree fun v h1 _ => hh v h1]
        by_cases he : (k.apply (P.s3 l r op.v)).a = some l ∧ (k.apply (P.s3 l r op.v)).b = r ∧
            (k.apply (P.s3 l r op.v)).c = op.v
        · rw [if_pos he]
          obtain ⟨a1, _⟩ := hi.ap _ _ he.1
          obtain ⟨t1, t2, t, b1, b2, b3, b4⟩ := a1 op he.2.2
          rw [he.2.1] at b2
          rw [b1.fun rl, b2.fun rr] at b4
          exact ⟨_, k, t, rfl, hi, .refl k, b3, hord hi rfl b3 b4, b4⟩
        · rw [if_neg he]
          generalize hdl : decide ((k.nd l).lvl ≤ (k.nd r).lvl) = dl
          generalize hdr : decide ((k.nd r).lvl ≤ (k.nd l).lvl) = dr
          generalize hvv : min (k.nd l).lvl (k.nd r).lvl = v
          have el := rl.lvl hv
          have er := rr.lvl hv
          have gl := ol.top hm
          have gr := or'.top hm
          have hvn : v < k.n := by
            have : ¬ (l < 2 ∧ r < 2) := hc
            have aux : ∀ {i : Nat} {t : T}, Rep k.nd i t → Ord k.n m t → 2 ≤ i → (k.nd i).lvl < k.n := by
              intro i t h1 h2 h3
              obtain ⟨lo, l', h', e1, e2, e3, e4⟩ := h1.ge2 h3
              subst e4
              exact h2.2.1
            by_cases h1 : 2 ≤ l
            · have := aux rl ol h1; omega
            · have := aux rr or' (by omega); omega
          have hmv : m ≤ v := by omega
          have ol' : Ord k.n v tl := ol.of_top.mono (by omega)
          have or2 : Ord k.n v tr := or'.of_top.mono (by omega)
          have hdl' : dl = decide ((k.nd l).lvl = v) := by rw [← hdl]; exact decide_eq_decide.2 (by omega)
          have hdr' : dr = decide ((k.nd r).lvl = v) := by rw [← hdr]; exact decide_eq_decide.2 (by omega)
          obtain ⟨l0, l1, l2, l3⟩ := step_low (P := P) hv rl pl ol' hvn hdl'
          obtain ⟨r0, r1, r2, r3⟩ := step_low (P := P) hv rr pr or2 hvn hdr'
          obtain ⟨sl1, sl2, sl3⟩ := ol'.split
          obtain ⟨sr1, sr2, sr3⟩ := or2.split
          obtain ⟨a, k1, ta, A1, A2, A3, A4, A5, A6⟩ := applyRec_spec hg op (f := f) hi hv l3 r3 l2 r2 sl1 sr1
            (by omega) (by omega) (by omega)
          have hlen1 : k1.stack.length < 2 * k1.n + 4 := by rw [A3.stack, A3.n]; omega
          have hi2 : Inv P { k1 with stack := a :: k1.stack } := A2.setStack fun i hm' h2 => by
            rcases List.mem_cons.1 hm' with rfl | hm'
            · exact A4.live h2
            · exact A2.slive i hm' h2
          have hv2 : Lv { k1 with stack := a :: k1.stack } := A3.lv hv
          have cl := core_iff.1 (A3.core l pl)
          have cr := core_iff.1 (A3.core r pr)
          obtain ⟨u1, u2⟩ := step_high (P := P) (k := { k1 with stack := a :: k1.stack }) hv2 (A3.rep pl rl) (A3.prot pl).push
            (by rw [show ({ k1 with stack := a :: k1.stack } : K).n = k.n from A3.n]; exact ol')
            (by rw [show ({ k1 with stack := a :: k1.stack } : K).n = k.n from A3.n]; exact hvn)
            (d := dl) (by rw [hdl', ← cl.1])
          obtain ⟨w1, w2⟩ := step_high (P := P) (k := { k1 with stack := a :: k1.stack }) hv2 (A3.rep pr rr) (A3.prot pr).push
            (by rw [show ({ k1 with stack := a :: k1.stack } : K).n = k.n from A3.n]; exact or2)
            (by rw [show ({ k1 with stack := a :: k1.stack } : K).n = k.n from A3.n]; exact hvn)
            (d := dr) (by rw [hdr', ← cr.1])
          obtain ⟨b, k3, tb, B1, B2, B3, B4, B5, B6⟩ := applyRec_spec hg op (f := f) hi2 hv2 u2 w2 u1 w1
            (by rw [show ({ k1 with stack := a :: k1.stack } : K).n = k.n from A3.n]; exact sl2)
            (by rw [show ({ k1 with stack := a :: k1.stack } : K).n = k.n from A3.n]; exact sr2)
            (by rw [show ({ k1 with stack := a :: k1.stack } : K).n = k.n from A3.n]; omega)
            (by rw [show ({ k1 with stack := a :: k1.stack } : K).n = k.n from A3.n]; omega)
            (by
              have : k1.stack = k.stack := A3.stack
              simp only [List.length_cons, this]; omega)
          have n3 : k3.n = k.n := B3.n.trans A3.n
          have s3 : k3.stack = a :: k.stack := B3.stack.trans (by simp [A3.stack])
          have a3 : Rep k3.nd a ta := B3.rep .top A4
          have pl3 : Prot k3 l := B3.prot (A3.prot pl).push
          have pr3 : Prot k3 r := B3.prot (A3.prot pr).push
          have kl3 := B3.core l (A3.prot pl).push
          have kr3 := B3.core r (A3.prot pr).push
          obtain ⟨x, k4, t, C1, C2, C3, C4, C5, C6⟩ := pushMake_spec hg B2 s3 (by rw [s3, n3]; simp only [List.length_cons]; omega) a3 B4
            (lvl := fun k => if dl = true then (k.nd l).lvl else (k.nd r).lvl) (v := v) (by
              show (if dl = true then (k3.nd l).lvl else (k3.nd r).lvl) = v
              rw [(core_iff.1 kl3).1, (core_iff.1 kr3).1]
              show (if dl = true then (k1.nd l).lvl else (k1.nd r).lvl) = v
              rw [cl.1, cr.1]
              cases dl with
              | true => simp at hdl' ⊢; omega
              | false =>
                simp at hdl ⊢; omega)
            (by rw [n3]; exact hvn) (by rw [n3]; exact A5) (by
              rw [n3]
              have : ({ k1 with stack := a :: k1.stack } : K).n = k.n := A3.n
              rw [this] at B5
              exact B5)
          have hkeep : Keep k k4 := by
            have := A3.push_pop B3
            rw [A3.stack] at this
            exact this.trans C3
          have hev : ∀ ρ, t.eval ρ = op.f (tl.eval ρ) (tr.eval ρ) := fun ρ => by
            rw [C6, A6, B6, sl3, sr3]
            cases ρ v <;> rfl
          have hap : ApOk k4.nd { k4.apply (P.s3 l r op.v) with a := some l, b := r, c := op.v, res := x } := by
            intro l' hl'
            injection hl' with hl'
            subst hl'
            refine ⟨fun op' ho => ?_, fun ho => absurd ho op.v_ne⟩
            rw [← Bop.v_inj ho]
            exact ⟨tl, tr, t, hkeep.rep pl rl, hkeep.rep pr rr, C4, hev⟩
          refine ⟨x, _, t, ?_, C2.setApply (s := P.s3 l r op.v) hap, hkeep.trans ⟨rfl, rfl, fun _ => rfl, fun _ _ => rfl, rfl, rfl, rfl, rfl, rfl, Nat.le_refl _,
              fun _ _ _ _ => ⟨rfl, fun _ h => h⟩⟩,
            C4, hord C2 hkeep.n C4 hev, hev⟩
          rw [l1, r1]
          simp only [Option.bind_eq_bind, Option.bind_some, A1, push_eq hlen1, B1, C1]
          rfl

/-! ### Operations on one operand -/

theorem Inv.push {P : Par} {k : K} (hi : Inv P k) {a : Nat} {t : T} (ha : Rep k.nd a t) :
    Inv P { k with stack := a :: k.stack } := hi.setStack fun i hm h2 => by
  rcases List.mem_cons.1 hm with rfl | hm
  · exact ha.live h2
  · exact hi.slive i hm h2

/-- the state of the three steps of a recursion on the successors of `r` -/
theorem rec_node {P : Par} {k k1 k3 k4 : K} {r a b x v : Nat} (A3 : Keep k k1)
    (B3 : Keep { k1 with stack := a :: k1.stack } k3) (C3 : Keep { k3 with stack := k.stack } k4) : Keep k k4 := by
  have := A3.push_pop B3
  rw [A3.stack] at this
  exact this.trans C3

theorem notRec_spec {P : Par} (hg : ∀ s, s < P.grow s) : ∀ {f : Nat} {k : K} {r m : Nat} {tr : T},
    Inv P k → Prot k r → Rep k.nd r tr → Ord k.n m tr → k.n < f + m → m ≤ k.n → k.stack.length ≤ 2 * m →
    ∃ x k' t, notRec P f k r = some (x, k') ∧ Inv P k' ∧ Keep k k' ∧ Rep k'.nd x t ∧ Ord k.n m t ∧
      ∀ ρ, t.eval ρ = !tr.eval ρ
  | 0, k, r, m, tr, _, _, _, _, hf, hm, _ => by omega
  | f + 1, k, r, m, tr, hi, pr, rr, or', hf, hm, hst => by
    unfold notRec
    by_cases h0 : r = 0
    · rw [if_pos h0]
      subst h0
      rw [rr.lt2 (by omega)]
      exact ⟨1, k, _, rfl, hi, .refl k, .tt, trivial, fun ρ => rfl⟩
    · rw [if_neg h0]
      by_cases h1 : r = 1
      · rw [if_pos h1]
        subst h1
        rw [rr.lt2 (by omega)]
        exact ⟨0, k, _, rfl, hi, .refl k, .ff, trivial, fun ρ => rfl⟩
      · rw [if_neg h1]
        dsimp only
        have hord : ∀ {k' : K} {x : Nat} {t : T}, Inv P k' → k'.n = k.n → Rep k'.nd x t →
            (∀ ρ, t.eval ρ = !tr.eval ρ) → Ord k.n m t := fun {k' x t} hi' hn' hx hev => by
          have := hi'.ord hx
          rw [hn'] at this
          refine this.of_indep fun ρ σ hh => ?_
          rw [hev, hev, or'.agree fun v h1 _ => hh v h1]
        by_cases he : (k.apply (P.s1 r)).a = some r ∧ (k.apply (P.s1 r)).c = notV
        · rw [if_pos he]
          obtain ⟨_, a1⟩ := hi.ap _ _ he.1
          obtain ⟨t1, t, b1, b3, b4⟩ := a1 he.2
          rw [b1.fun rr] at b4
          exact ⟨_, k, t, rfl, hi, .refl k, b3, hord hi rfl b3 b4, b4⟩
        · rw [if_neg he]
          obtain ⟨lo, tl, th, e1, e2, e3, rfl⟩ := rr.ge2 (by omega)
          obtain ⟨o1, o2, o3, o4, o5⟩ := or'
          generalize hv : (k.nd r).lvl = v at *
          obtain ⟨a, k1, ta, A1, A2, A3, A4, A5, A6⟩ := notRec_spec hg (f := f) hi (pr.low (by omega) e1) e2 o4
            (by omega) (by omega) (by omega)
          have hlen1 : k1.stack.length < 2 * k1.n + 4 := by rw [A3.stack, A3.n]; omega
          have n2 : ({ k1 with stack := a :: k1.stack } : K).n = k.n := A3.n
          obtain ⟨c1, c2, c3⟩ := core_iff.1 (A3.core r pr)
          have hhi : ({ k1 with stack := a :: k1.stack } : K).nd r = k1.nd r := rfl
          obtain ⟨b, k3, tb, B1, B2, B3, B4, B5, B6⟩ := notRec_spec hg (f := f) (A2.push A4)
            (r := (({ k1 with stack := a :: k1.stack } : K).nd r).high)
            (by rw [hhi, c3]; exact (A3.prot (pr.high (by omega) e1)).push)
            (by rw [hhi, c3]; exact A3.rep (pr.high (by omega) e1) e3) (by rw [n2]; exact o5) (by rw [n2]; omega)
            (by rw [n2]; omega) (by
              have : k1.stack = k.stack := A3.stack
              simp only [List.length_cons, this]; omega)
          have n3 : k3.n = k.n := B3.n.trans A3.n
          have s3 : k3.stack = a :: k.stack := B3.stack.trans (by simp [A3.stack])
          rw [n2] at B5
          obtain ⟨x, k4, t, C1, C2, C3, C4, C5, C6⟩ := pushMake_spec hg B2 s3
            (by rw [s3, n3]; simp only [List.length_cons]; omega) (B3.rep .top A4) B4
            (lvl := fun k => (k.nd r).lvl) (v := v) (by
              show (k3.nd r).lvl = v
              rw [(core_iff.1 (B3.core r (A3.prot pr).push)).1, ← hv, ← c1])
            (by rw [n3]; exact o2) (by rw [n3]; exact A5) (by rw [n3]; exact B5)
          have hkeep : Keep k k4 := rec_node (P := P) (r := r) (b := b) (x := x) (v := v) A3 B3 C3
          have hev : ∀ ρ, t.eval ρ = !(T.node v tl th).eval ρ := fun ρ => by
            rw [C6, A6, B6]
            simp only [T.eval]
            cases ρ v <;> rfl
          have hap : ApOk k4.nd { k4.apply (P.s1 r) with a := some r, c := notV, res := x } := by
            intro l' hl'
            injection hl' with hl'
            subst hl'
            exact ⟨fun op' ho => absurd ho.symm op'.v_ne, fun _ => ⟨_, t, hkeep.rep pr rr, C4, hev⟩⟩
          refine ⟨x, _, t, ?_, C2.setApply (s := P.s1 r) hap,
            hkeep.trans ⟨rfl, rfl, fun _ => rfl, fun _ _ => rfl, rfl, rfl, rfl, rfl, rfl, Nat.le_refl _,
              fun _ _ _ _ => ⟨rfl, fun _ h => h⟩⟩,
            C4, hord C2 hkeep.n C4 hev, hev⟩
          rw [e1]
          simp only [Option.bind_eq_bind, Option.bind_some, A1, push_eq hlen1, B1, C1]
          rfl

/-! ### Restriction -/

theorem over_none {L : List (Nat × Bool)} {v : Nat} (h : L.lookup v = none) (ρ : Nat → Bool) : over L ρ v = ρ v := by
  simp [over, h]
theorem over_some {L : List (Nat × Bool)} {v : Nat} {b : Bool} (h : L.lookup v = some b) (ρ : Nat → Bool) :
    over L ρ v = b := by simp [over, h]

/-- the table `quantvarset` contains the literals `L` -/
structure QS (k : K) (L : List (Nat × Bool)) : Prop where
  pos : 0 < k.qid
  out : ∀ v, L.lookup v = none → ((k.qset v).natAbs : Int) ≠ k.qid
  mem : ∀ v b, L.lookup v = some b → k.qset v = if b then k.qid else -k.qid
  last : ∀ v b, L.lookup v = some b → v ≤ k.qlast

theorem QS.keep {k k' : K} {L : List (Nat × Bool)} (h : QS k L) (h1 : k'.qid = k.qid) (h2 : k'.qset = k.qset)
    (h3 : k'.qlast = k.qlast) : QS k' L :=
  ⟨by rw [h1]; exact h.pos, by rw [h1, h2]; exact h.out, by rw [h1, h2]; exact h.mem, by rw [h3]; exact h.last⟩

theorem restrictRec_spec {P : Par} (hg : ∀ s, s < P.grow s) {id : Nat} (hid : 9 ≤ id) {tv : T} :
    ∀ {f : Nat} {k : K} {r m : Nat} {tr : T},
    Inv P k → QS k tv.cp → Prot k (id / 8) → Rep k.nd (id / 8) tv →
    Prot k r → Rep k.nd r tr → Ord k.n m tr → k.n < f + m → m ≤ k.n → k.stack.length ≤ 2 * m →
    ∃ x k' t, restrictRec P id f k r = some (x, k') ∧ Inv P k' ∧ Keep k k' ∧ Rep k'.nd x t ∧ Ord k.n m t ∧
      ∀ ρ, t.eval ρ = tr.eval (over tv.cp ρ)
  | 0, k, r, m, tr, _, _, _, _, _, _, _, hf, hm, _ => by omega
  | f + 1, k, r, m, tr, hi, hq, pv, rv, pr, rr, or', hf, hm, hst => by
    unfold restrictRec
    by_cases h0 : r < 2 ∨ k.qlast < (k.nd r).lvl
    · rw [if_pos h0]
      refine ⟨r, k, tr, rfl, hi, .refl k, rr, or', fun ρ => ?_⟩
      by_cases h2 : r < 2
      · rw [rr.lt2 h2]; rfl
      · obtain ⟨lo, tl, th, e1, e2, e3, rfl⟩ := rr.ge2 (by omega)
        have hq' : k.qlast < (k.nd r).lvl := h0.resolve_left h2
        have : Ord k.n (k.nd r).lvl (.node (k.nd r).lvl tl th) := ⟨Nat.le_refl _, or'.2⟩
        refine this.agree fun v hv _ => ?_
        cases hl : tv.cp.lookup v with
        | none => rw [over_none hl]
        | some b => have := hq.last v b hl; omega
    · rw [if_neg h0]
      have h2 : 2 ≤ r := by omega
      dsimp only
      have hord : ∀ {k' : K} {x : Nat} {t : T}, Inv P k' → k'.n = k.n → Rep k'.nd x t →
          (∀ ρ, t.eval ρ = tr.eval (over tv.cp ρ)) → Ord k.n m t := fun {k' x t} hi' hn' hx hev => by
        have := hi'.ord hx
        rw [hn'] at this
        refine this.of_indep fun ρ σ hh => ?_
        rw [hev, hev]
        refine or'.agree fun v h1 _ => ?_
        simp only [over, hh v h1]
      by_cases he : (k.misc (P.s2 r id)).a = some r ∧ (k.misc (P.s2 r id)).c = id
      · rw [if_pos he]
        obtain ⟨t1, t2, t, b1, b2, b3, b4⟩ := hi.mi _ _ he.1 (by rw [he.2]; exact hid)
        rw [he.2] at b2
        rw [b1.fun rr, b2.fun rv] at b4
        exact ⟨_, k, t, rfl, hi, .refl k, b3, hord hi rfl b3 b4, b4⟩
      · rw [if_neg he]
        obtain ⟨lo, tl, th, e1, e2, e3, htr⟩ := rr.ge2 h2
        have or2 := or'
        rw [htr] at or2
        obtain ⟨o1, o2, o3, o4, o5⟩ := or2
        generalize hv : (k.nd r).lvl = v at *
        -- result of the inner part
        have key : ∃ x k4 t, (if ((k.qset v).natAbs : Int) = k.qid then
              if 0 < k.qset v then restrictRec P id f k (k.nd r).high
              else (k.nd r).low.bind fun lo => restrictRec P id f k lo
            else do
              let r0 ← (k.nd r).low
              let (a, k1) ← restrictRec P id f k r0
              let k2 ← push k1 a
              let (b, k3) ← restrictRec P id f k2 (k2.nd r).high
              pushMake P k3 b fun k => (k.nd r).lvl : Option (Nat × K)) = some (x, k4) ∧ Inv P k4 ∧ Keep k k4 ∧
            Rep k4.nd x t ∧ ∀ ρ, t.eval ρ = tr.eval (over tv.cp ρ) := by
          by_cases hin : ((k.qset v).natAbs : Int) = k.qid
          · rw [if_pos hin]
            cases hl : tv.cp.lookup v with
            | none => exact absurd hin (hq.out v hl)
            | some b =>
              have hb := hq.mem v b hl
              have hp := hq.pos
              cases b with
              | true =>
                rw [if_pos (by rw [hb]; simpa using hp)]
                obtain ⟨a, k1, ta, A1, A2, A3, A4, A5, A6⟩ := restrictRec_spec hg hid (f := f) hi hq pv rv
                  (pr.high h2 e1) e3 o5 (by omega) (by omega) (by omega)
                refine ⟨a, k1, ta, A1, A2, A3, A4, fun ρ => ?_⟩
                rw [A6, htr]
                simp only [T.eval, over_some hl, if_true]
              | false =>
                rw [if_neg (by rw [hb]; simp; omega)]
                obtain ⟨a, k1, ta, A1, A2, A3, A4, A5, A6⟩ := restrictRec_spec hg hid (f := f) hi hq pv rv
                  (pr.low h2 e1) e2 o4 (by omega) (by omega) (by omega)
                refine ⟨a, k1, ta, by rw [e1]; exact A1, A2, A3, A4, fun ρ => ?_⟩
                rw [A6, htr]
                simp only [T.eval, over_some hl]
                rfl
          · rw [if_neg hin]
            have hl : tv.cp.lookup v = none := by
              cases hl : tv.cp.lookup v with
              | none => rfl
              | some b =>
                refine absurd ?_ hin
                have hb := hq.mem v b hl
                have hp := hq.pos
                cases b
                · simp at hb; rw [hb]; omega
                · simp at hb; rw [hb]; omega
            obtain ⟨a, k1, ta, A1, A2, A3, A4, A5, A6⟩ := restrictRec_spec hg hid (f := f) hi hq pv rv
              (pr.low h2 e1) e2 o4 (by omega) (by omega) (by omega)
            have hlen1 : k1.stack.length < 2 * k1.n + 4 := by rw [A3.stack, A3.n]; omega
            have n2 : ({ k1 with stack := a :: k1.stack } : K).n = k.n := A3.n
            obtain ⟨c1, c2, c3⟩ := core_iff.1 (A3.core r pr)
            have hhi : ({ k1 with stack := a :: k1.stack } : K).nd r = k1.nd r := rfl
            obtain ⟨b, k3, tb, B1, B2, B3, B4, B5, B6⟩ := restrictRec_spec hg hid (f := f) (A2.push A4)
              (hq.keep A3.qid A3.qset A3.qlast) (A3.prot pv).push (A3.rep pv rv)
              (r := (({ k1 with stack := a :: k1.stack } : K).nd r).high)
              (by rw [hhi, c3]; exact (A3.prot (pr.high h2 e1)).push)
              (by rw [hhi, c3]; exact A3.rep (pr.high h2 e1) e3) (by rw [n2]; exact o5) (by rw [n2]; omega)
              (by rw [n2]; omega) (by
                have : k1.stack = k.stack := A3.stack
                simp only [List.length_cons, this]; omega)
            have n3 : k3.n = k.n := B3.n.trans A3.n
            have s3 : k3.stack = a :: k.stack := B3.stack.trans (by simp [A3.stack])
            rw [n2] at B5
            obtain ⟨x, k4, t, C1, C2, C3, C4, C5, C6⟩ := pushMake_spec hg B2 s3
              (by rw [s3, n3]; simp only [List.length_cons]; omega) (B3.rep .top A4) B4
              (lvl := fun k => (k.nd r).lvl) (v := v) (by
                show (k3.nd r).lvl = v
                rw [(core_iff.1 (B3.core r (A3.prot pr).push)).1, ← hv, ← c1])
              (by rw [n3]; exact o2) (by rw [n3]; exact A5) (by rw [n3]; exact B5)
            have hkeep : Keep k k4 := rec_node (P := P) (r := r) (b := b) (x := x) (v := v) A3 B3 C3
            refine ⟨x, k4, t, ?_, C2, hkeep, C4, fun ρ => ?_⟩
            · rw [e1]
              simp only [Option.bind_eq_bind, Option.bind_some, A1, push_eq hlen1, B1, C1]
            · rw [C6, A6, B6, htr]
              simp only [T.eval, over_none hl]
        obtain ⟨x, k4, t, C1, C2, hkeep, C4, hev⟩ := key
        have hap : MiOk k4.nd { k4.misc (P.s2 r id) with a := some r, c := id, res := x } := by
          intro l' hl' _
          injection hl' with hl'
          subst hl'
          exact ⟨tr, tv, t, hkeep.rep pr rr, hkeep.rep pv rv, C4, hev⟩
        refine ⟨x, _, t, ?_, C2.setMisc (s := P.s2 r id) hap,
          hkeep.trans ⟨rfl, rfl, fun _ => rfl, fun _ _ => rfl, rfl, rfl, rfl, rfl, rfl, Nat.le_refl _,
            fun s' r' ha hc => by
              by_cases hs : s' = P.s2 r id
              · subst hs
                simp only [upd_self] at hc
                omega
              · exact ⟨upd_ne _ _ hs, fun _ h => h⟩⟩,
          C4, hord C2 hkeep.n C4 hev, hev⟩
        rw [C1]
        rfl

end Verif.Bdd
