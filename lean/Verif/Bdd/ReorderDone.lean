import Verif.Bdd.ReorderInit
/-
The end of a reordering: references, levels, garbage collection.
-/
namespace Verif.Bdd

section Done

variable {P : Par} {Q : RPar} {o : Nat → Nat} {x : Nat → Nat} {D : Nat → Fn} {L : List Nat} {s : RS}

theorem Reach.step {nd : Nat → Node} {i j d lo : Nat} (h2 : 2 ≤ i) (hl : (nd i).low = some lo) (hd : d = lo ∨ d = (nd i).high)
    (h : Reach nd (· = d) j) : Reach nd (· = i) j := by
  induction h with
  | root e =>
    rcases hd with h' | h'
    · rw [e, h']; exact .low (.root rfl) h2 hl
    · rw [e, h']; exact .high (.root rfl) h2 hl
  | low _ h3 h4 ih => exact .low ih h3 h4
  | high _ h3 h4 ih => exact .high ih h3 h4

/-- nodes, closed under children, with increasing levels below `n` -/
structure Clo (nd : Nat → Node) (n : Nat) (lv : Nat → Nat) (L : List Nat) : Prop where
  node : ∀ i ∈ L, 2 ≤ i ∧ lv i < n ∧ ∃ lo, (nd i).low = some lo ∧ ∀ d, d = lo ∨ d = (nd i).high → d < 2 ∨ (d ∈ L ∧ lv i < lv d)

theorem Reach.clo {nd : Nat → Node} {n : Nat} {lv : Nat → Nat} {R : Nat → Prop} (h : Clo nd n lv L) (hR : ∀ i, R i → i < 2 ∨ i ∈ L) {j : Nat}
    (hj : Reach nd R j) : j < 2 ∨ j ∈ L := by
  induction hj with
  | root e => exact hR _ e
  | low _ h3 h4 ih =>
    obtain ⟨_, _, lo, e1, e2⟩ := h.node _ (ih.resolve_left (by omega))
    rw [h4] at e1
    cases e1
    exact (e2 _ (.inl rfl)).imp id And.left
  | high _ h3 h4 ih =>
    obtain ⟨_, _, lo, e1, e2⟩ := h.node _ (ih.resolve_left (by omega))
    exact (e2 _ (.inr rfl)).imp id And.left

/-- reachability in a table with the same children -/
theorem Reach.map {nd nd' : Nat → Node} {n : Nat} {lv : Nat → Nat} {R : Nat → Prop} (h : Clo nd n lv L) (hR : ∀ i, R i → i < 2 ∨ i ∈ L)
    (he : ∀ i ∈ L, (nd' i).low = (nd i).low ∧ (nd' i).high = (nd i).high) {j : Nat} (hj : Reach nd R j) : Reach nd' R j := by
  induction hj with
  | root e => exact .root e
  | low hi h3 h4 ih =>
    have := he _ ((hi.clo h hR).resolve_left (by omega))
    exact .low ih h3 (this.1.trans h4)
  | high hi h3 h4 ih =>
    have := he _ ((hi.clo h hR).resolve_left (by omega))
    rw [← this.2]
    exact .high ih h3 (this.1.trans h4)

theorem unmark_spec {nd : Nat → Node} {n : Nat} {lv : Nat → Nat} (h : Clo nd n lv L) : ∀ {f : Nat} {m : Nat → Bool} {i : Nat},
    (i < 2 ∧ 1 ≤ f) ∨ (i ∈ L ∧ n < f + lv i) → ∃ m', unmark nd f m i = some m' ∧ (∀ j, m' j = true → m j = true) ∧
      ∀ j, m j = true → m' j = true ∨ Reach nd (· = i) j
  | 0, m, i, hf => by
    rcases hf with hf | ⟨hi, hf⟩
    · omega
    · have := (h.node i hi).2.1; omega
  | f + 1, m, i, hf => by
    unfold unmark
    by_cases h2 : i < 2
    · rw [if_pos h2]
      exact ⟨m, rfl, fun _ h => h, fun _ h => .inl h⟩
    · rw [if_neg h2]
      obtain ⟨hi, hf⟩ := hf.resolve_left (fun g => h2 g.1)
      by_cases hm : m i = false
      · rw [if_pos hm]
        exact ⟨m, rfl, fun _ h => h, fun _ h => .inl h⟩
      · rw [if_neg hm]
        obtain ⟨_, k1, lo, k2, k3⟩ := h.node i hi
        have hfu : ∀ d, d = lo ∨ d = (nd i).high → (d < 2 ∧ 1 ≤ f) ∨ (d ∈ L ∧ n < f + lv d) := fun d hd => by
          rcases k3 d hd with g | ⟨g1, g2⟩
          · exact .inl ⟨g, by omega⟩
          · exact .inr ⟨g1, by omega⟩
        obtain ⟨m1, p1, p2, p3⟩ := unmark_spec h (f := f) (m := upd m i false) (hfu lo (.inl rfl))
        obtain ⟨m2, q1, q2, q3⟩ := unmark_spec h (f := f) (m := m1) (hfu _ (.inr rfl))
        refine ⟨m2, ?_, fun j hj => ?_, fun j hj => ?_⟩
        · rw [k2]
          show Option.bind (unmark nd f (upd m i false) lo) _ = _
          rw [p1]
          exact q1
        · have := p2 j (q2 j hj)
          by_cases hji : j = i
          · rw [hji] at this; simp at this
          · rw [upd_ne _ _ hji] at this; exact this
        · by_cases hji : j = i
          · exact .inr (.root hji)
          · rcases p3 j (by rw [upd_ne _ _ hji]; exact hj) with g | g
            · rcases q3 j g with g | g
              · exact .inl g
              · exact .inr (.step (by omega) k2 (.inr rfl) g)
            · exact .inr (.step (by omega) k2 (.inl rfl) g)

theorem keepRefs_spec {nd : Nat → Node} {n : Nat} {lv : Nat → Nat} (h : Clo nd n lv L) : ∀ {is : List Nat} {m kp : Nat → Bool},
    is.Pairwise (· < ·) → (∀ i, m i = true → i ∈ L) → ∃ kp', keepRefs nd (n + 1) is m kp = some kp' ∧ (∀ i, kp i = true → kp' i = true) ∧
      (∀ i, kp' i = true → kp i = true ∨ m i = true) ∧
      ∀ i ∈ is, m i = true → kp' i = true ∨ ∃ j, j < i ∧ kp' j = true ∧ Reach nd (· = j) i
  | [], m, kp, _, _ => ⟨kp, rfl, fun _ h => h, fun _ h => .inl h, by simp⟩
  | i :: is, m, kp, hs, hm => by
    obtain ⟨hs1, hs2⟩ := List.pairwise_cons.1 hs
    unfold keepRefs
    by_cases hi : m i = true
    · obtain ⟨m1, p1, p2, p3⟩ := unmark_spec h (f := n + 1) (m := m) (.inr ⟨hm i hi, by omega⟩)
      obtain ⟨kp', q1, q2, q3, q4⟩ := keepRefs_spec h (is := is) (m := m1) (kp := upd kp i true) hs2 (fun j hj => hm j (p2 j hj))
      have hkp : kp' i = true := q2 i (by simp)
      refine ⟨kp', ?_, fun j hj => q2 j ?_, fun j hj => ?_, fun j hj hmj => ?_⟩
      · rw [if_pos hi]
        show Option.bind (unmark nd (n + 1) m i) _ = _
        rw [p1]
        exact q1
      · unfold upd
        split
        · rfl
        · exact hj
      · rcases q3 j hj with g | g
        · by_cases hji : j = i
          · exact .inr (hji ▸ hi)
          · rw [upd_ne _ _ hji] at g; exact .inl g
        · exact .inr (p2 j g)
      · rcases List.mem_cons.1 hj with g | g
        · exact .inl (g ▸ hkp)
        · rcases p3 j hmj with g1 | g1
          · exact q4 j g g1
          · exact .inr ⟨i, hs1 j g, hkp, g1⟩
    · rw [if_neg hi]
      obtain ⟨kp', q1, q2, q3, q4⟩ := keepRefs_spec h (is := is) (m := m) (kp := kp) hs2 hm
      refine ⟨kp', q1, q2, q3, fun j hj hmj => ?_⟩
      rcases List.mem_cons.1 hj with g | g
      · exact absurd (g ▸ hmj) hi
      · exact q4 j g hmj

theorem mark_congr {nd nd' : Nat → Node} {n : Nat} {lv : Nat → Nat} (h : Clo nd n lv L)
    (he : ∀ i ∈ L, (nd' i).low = (nd i).low ∧ (nd' i).high = (nd i).high) : ∀ {f : Nat} {m : Nat → Bool} {i : Nat}, i < 2 ∨ i ∈ L →
    mark nd' f m i = mark nd f m i
  | 0, m, i, _ => rfl
  | f + 1, m, i, hi => by
    unfold mark
    by_cases h2 : i < 2
    · rw [if_pos h2, if_pos h2]
    · rw [if_neg h2, if_neg h2]
      by_cases hm : m i = true
      · rw [if_pos hm, if_pos hm]
      · rw [if_neg hm, if_neg hm]
        have hiL := hi.resolve_left h2
        obtain ⟨_, _, lo, k2, k3⟩ := h.node i hiL
        obtain ⟨e1, e2⟩ := he i hiL
        rw [e1, e2, k2]
        show mark nd' f (mark nd' f (upd m i true) lo) _ = mark nd f (mark nd f (upd m i true) lo) _
        rw [mark_congr h he ((k3 lo (.inl rfl)).imp id And.left), mark_congr h he ((k3 _ (.inr rfl)).imp id And.left)]

theorem resetCache_idem (c : Nat → Entry) : resetCache (resetCache c) = resetCache c := rfl

theorem RI.clo {sz0 : Nat} (h : RI Q sz0 x D L s) : Clo s.nd s.n (fun i => s.v2l (s.nd i).lvl) L := ⟨fun i hi => by
  obtain ⟨lo, h1, h2, _⟩ := h.si.cr.node i hi
  refine ⟨(h.si.cr.rng i hi).1, (h.lv _ h2).1, lo, h1, fun d hd => ?_⟩
  have hk : d ∈ kids (cores s.nd) i := by
    rw [kids_some h1]
    rcases hd with e | e
    · simp [e]
    · rw [e]; exact List.mem_cons_of_mem _ List.mem_cons_self
  rcases h.si.cr.kid hi hk with g | g
  · exact .inl g
  · exact .inr ⟨g, h.si.cr.ord i hi (by simp) d hk (h.si.cr.rng d g).1⟩⟩

/-- the trees of the nodes in use, with levels -/
theorem RI.tree {sz0 : Nat} (h : RI Q sz0 x D L s) {nd : Nat → Node}
    (he : ∀ i ∈ L, (nd i).lvl = s.v2l (s.nd i).lvl ∧ (nd i).low = (s.nd i).low ∧ (nd i).high = (s.nd i).high) :
    ∀ (m i : Nat), (i < 2 ∨ (i ∈ L ∧ s.n ≤ m + s.v2l (s.nd i).lvl)) →
    ∃ t, Rep nd i t ∧ Ord s.n (if i < 2 then s.n else s.v2l (s.nd i).lvl) t ∧ ∀ ρ, (t.eval fun l => ρ (s.l2v l)) = D i ρ := by
  have leaf : ∀ i, i < 2 → ∃ t, Rep nd i t ∧ Ord s.n (if i < 2 then s.n else s.v2l (s.nd i).lvl) t ∧
      ∀ ρ, (t.eval fun l => ρ (s.l2v l)) = D i ρ := fun i hi => by
    have : i = 0 ∨ i = 1 := by omega
    rcases this with rfl | rfl
    · exact ⟨_, .ff, trivial, fun ρ => by rw [h.si.cr.d0]; rfl⟩
    · exact ⟨_, .tt, trivial, fun ρ => by rw [h.si.cr.d1]; rfl⟩
  intro m
  induction m with
  | zero =>
    intro i hi
    rcases hi with hi | ⟨hi, hm⟩
    · exact leaf i hi
    · have := (h.clo.node i hi).2.1
      omega
  | succ m ih =>
    intro i hi
    rcases hi with hi | ⟨hi, hm⟩
    · exact leaf i hi
    · obtain ⟨g2, g3, lo, g4, g5⟩ := h.clo.node i hi
      obtain ⟨lo', n1, n2, n3, n4, n5⟩ := h.si.cr.node i hi
      have : lo' = lo := Option.some.inj (n1.symm.trans g4)
      subst this
      obtain ⟨e1, e2, e3⟩ := he i hi
      have hd : ∀ d, d = lo' ∨ d = (s.nd i).high → d < 2 ∨ (d ∈ L ∧ s.n ≤ m + s.v2l (s.nd d).lvl) := fun d hd =>
        (g5 d hd).imp id fun g => ⟨g.1, by omega⟩
      have hlow : ∀ d, d = lo' ∨ d = (s.nd i).high → s.v2l (s.nd i).lvl + 1 ≤ (if d < 2 then s.n else s.v2l (s.nd d).lvl) := fun d hd => by
        rcases g5 d hd with g | g
        · rw [if_pos g]; omega
        · rw [if_neg (by have := (h.si.cr.rng d g.1).1; omega)]; omega
      obtain ⟨tl, a1, a2, a3⟩ := ih lo' (hd lo' (.inl rfl))
      obtain ⟨th, b1, b2, b3⟩ := ih _ (hd _ (.inr rfl))
      have hvar : s.l2v (s.v2l (s.nd i).lvl) = (s.nd i).lvl := (h.lv _ n2).2
      have hr : Rep nd i (.node (s.v2l (s.nd i).lvl) tl th) := by
        rw [← e1]
        rw [← e3] at b1
        exact .node g2 (e2.trans g4) a1 b1
      have hD : ∀ ρ, ((T.node (s.v2l (s.nd i).lvl) tl th).eval fun l => ρ (s.l2v l)) = D i ρ := fun ρ => by
        rw [n5]
        show (if ρ (s.l2v (s.v2l (s.nd i).lvl)) = true then _ else _) = _
        rw [hvar, a3, b3]
        rfl
      refine ⟨_, hr, ?_, hD⟩
      rw [if_neg (by omega)]
      refine ⟨Nat.le_refl _, g3, fun e => ?_, a2.mono (hlow _ (.inl rfl)), b2.mono (hlow _ (.inr rfl))⟩
      subst e
      refine h.si.cr.dep i hi fun ρ b => ?_
      rw [← hD, ← hD]
      show (if _ then _ else _) = (if _ then _ else _)
      rw [ite_self, ite_self]
      refine a2.agree fun l hl hln => setv_ne _ _ fun e => ?_
      have h1 := (h.vl l hln).2
      have h2 := hlow _ (.inl rfl)
      rw [e] at h1
      have h1 : s.v2l (s.nd i).lvl = l := h1
      omega

theorem rDone_spec {sz0 : Nat} {k : K} {roots : List Nat} (h : RI Q sz0 x D L s) (hn : s.n = k.n) (hst : k.stack = [])
    (hroots : ∀ i, i ∈ roots ↔ 0 < x i) :
    ∃ k1, rDone P k roots s = some k1 ∧ Inv P k1 ∧ Lv k1 ∧ k1.n = k.n ∧ k1.stack = [] ∧ k1.vars = k.vars ∧
      (∀ i, 0 < x i → ∃ t, Rep k1.nd i t ∧ ∀ ρ, (t.eval fun l => ρ (s.l2v l)) = D i ρ) ∧
      (∀ i, 0 < x i → 0 < (k1.nd i).ref ∨ ∃ j, j < i ∧ 0 < (k1.nd j).ref ∧ 0 < x j ∧ Reach k1.nd (· = j) i) ∧
      ∀ i, 2 ≤ i → 0 < (k1.nd i).ref → 0 < x i ∧ (x i ≤ (k1.nd i).ref ∨ maxref ≤ (k1.nd i).ref) := by
  have hclo := h.clo
  obtain ⟨kp, p1, _, p3, p4⟩ := keepRefs_spec hclo (is := List.range' 2 (s.size - 2)) (m := fun i => decide (i ∈ roots)) (kp := fun _ => false)
    List.pairwise_lt_range' (fun i hi => h.si.rf.xz i ((hroots i).1 (by simpa using hi)))
  have hkp : ∀ i, kp i = true → 0 < x i := fun i hi => by
    rcases p3 i hi with g | g
    · cases g
    · exact (hroots i).1 (by simpa using g)
  have hLr := h.si.cr.rng
  -- the kernel before the garbage collection, and a copy without garbage
  obtain ⟨ndd, ed⟩ : ∃ ndd : Nat → Node, ndd = fun i => if 2 ≤ i ∧ i < s.size then
      { s.nd i with ref := if kp i then (s.nd i).ref else 0, lvl := s.v2l (s.nd i).lvl } else s.nd i := ⟨_, rfl⟩
  obtain ⟨nd0, e0⟩ : ∃ nd0 : Nat → Node, nd0 = fun i => if 2 ≤ i ∧ i ∉ L then { ndd i with low := none } else ndd i := ⟨_, rfl⟩
  have hdL : ∀ i ∈ L, ndd i = { s.nd i with ref := if kp i then (s.nd i).ref else 0, lvl := s.v2l (s.nd i).lvl } := fun i hi => by
    rw [ed]; dsimp only; rw [if_pos (hLr i hi)]
  have h0L : ∀ i, i < 2 ∨ i ∈ L → nd0 i = ndd i := fun i hi => by
    rw [e0]; dsimp only
    rw [if_neg]
    rintro ⟨g1, g2⟩
    rcases hi with hi | hi
    · omega
    · exact g2 hi
  have h0n : ∀ i, 2 ≤ i → i ∉ L → (nd0 i).low = none := fun i h2 hi => by
    rw [e0]; dsimp only; rw [if_pos ⟨h2, hi⟩]
  have h0ref : ∀ i, (nd0 i).ref = (ndd i).ref := fun i => by rw [e0]; dsimp only; split <;> rfl
  have hcore : ∀ i ∈ L, (nd0 i).lvl = s.v2l (s.nd i).lvl ∧ (nd0 i).low = (s.nd i).low ∧ (nd0 i).high = (s.nd i).high := fun i hi => by
    rw [h0L i (.inr hi), hdL i hi]; exact ⟨rfl, rfl, rfl⟩
  have hlive0 : ∀ i, 2 ≤ i → (nd0 i).low ≠ none → i ∈ L := fun i h2 hl => by
    by_cases hi : i ∈ L
    · exact hi
    · exact absurd (h0n i h2 hi) hl
  have hrefd : ∀ i, 2 ≤ i → 0 < (ndd i).ref → kp i = true ∧ (ndd i).ref = (s.nd i).ref := fun i h2 hr => by
    by_cases hs : i < s.size
    · rw [ed] at hr ⊢
      dsimp only at hr ⊢
      rw [if_pos ⟨h2, hs⟩] at hr ⊢
      dsimp only at hr ⊢
      by_cases hk : kp i = true
      · rw [if_pos hk]; exact ⟨hk, rfl⟩
      · rw [if_neg hk] at hr; omega
    · exfalso
      rw [ed] at hr
      dsimp only at hr
      rw [if_neg (by omega)] at hr
      have : (s.nd i).ref = 0 := h.si.rf.z i h2 (fun hm => hs (hLr i hm).2)
      omega
  obtain ⟨kd, ekd⟩ : ∃ kd : K, kd = { k with size := s.size, free := s.free, nd := ndd } := ⟨_, rfl⟩
  obtain ⟨k0, ek0⟩ : ∃ k0 : K, k0 = rehash P { kd with nd := nd0, apply := resetCache kd.apply, quant := resetCache kd.quant
                                                      , misc := resetCache kd.misc } := ⟨_, rfl⟩
  have k0nd : k0.nd = nd0 := by rw [ek0]; rfl
  have kdnd : kd.nd = ndd := by rw [ekd]
  have k0n : k0.n = s.n := by rw [ek0, ekd, hn]; rfl
  have k0st : k0.stack = [] := by rw [ek0, ekd]; exact hst
  have k0sz : k0.size = s.size := by rw [ek0, ekd]; rfl
  have htree := h.tree hcore
  have htree' : ∀ i, i < 2 ∨ i ∈ L → ∃ t, Rep nd0 i t ∧ Ord s.n 0 t ∧ ∀ ρ, (t.eval fun l => ρ (s.l2v l)) = D i ρ := fun i hi => by
    obtain ⟨t, a1, a2, a3⟩ := htree s.n i (hi.imp id fun g => ⟨g, by omega⟩)
    exact ⟨t, a1, a2.mono (Nat.zero_le _), a3⟩
  have hinv : Inv P k0 := by
    refine ⟨?_, ?_, ?_, ?_, ?_, ?_, ?_, ?_, ?_, ?_, ?_, ?_⟩
    · rw [k0sz]; exact h.si.cr.sz
    · intro i h2 hl
      rw [k0nd] at hl ⊢
      rw [k0sz, k0n]
      have hi := hlive0 i h2 hl
      obtain ⟨t, a1, a2, _⟩ := htree' i (.inr hi)
      exact ⟨(hLr i hi).2, t, a1, a2⟩
    · intro i j h2 h3 hl hc
      rw [k0nd] at hl hc
      have hi := hlive0 i h2 hl
      obtain ⟨c1, c2, c3⟩ := core_iff.1 hc
      have hj := hlive0 j h3 (by rw [← c2]; exact hl)
      obtain ⟨ei1, ei2, ei3⟩ := hcore i hi
      obtain ⟨ej1, ej2, ej3⟩ := hcore j hj
      obtain ⟨lo, n1, n2, _, _, n5⟩ := h.si.cr.node i hi
      obtain ⟨lo', m1, m2, _, _, m5⟩ := h.si.cr.node j hj
      have hv : (s.nd i).lvl = (s.nd j).lvl := h.si.cr.oinj _ _ n2 m2 (by
        show s.v2l (s.nd i).lvl = s.v2l (s.nd j).lvl
        rw [← ei1, ← ej1, c1])
      have hlo : lo = lo' := by
        have : some lo = some lo' := by
          rw [← n1, ← m1]
          show (s.nd i).low = (s.nd j).low
          rw [← ei2, ← ej2, c2]
        exact Option.some.inj this
      have hhi : (s.nd i).high = (s.nd j).high := by rw [← ei3, ← ej3, c3]
      refine h.si.cr.inj i j (.inr hi) (.inr hj) (funext fun ρ => ?_)
      rw [n5, m5, hlo]
      show (if ρ (s.nd i).lvl = true then D (s.nd i).high ρ else _) = (if ρ (s.nd j).lvl = true then D (s.nd j).high ρ else _)
      rw [hv, hhi]
    · intro i lo h2 hl
      rw [ek0] at hl ⊢
      refine rehash_mem.2 ⟨⟨h2, ?_⟩, lo, hl, rfl⟩
      have hl : (nd0 i).low = some lo := hl
      have := (hLr i (hlive0 i h2 (by simp [hl]))).2
      show i < 2 + (kd.size - 2)
      rw [ekd]
      show i < 2 + (s.size - 2)
      omega
    · intro hh i hb
      rw [ek0] at hb ⊢
      obtain ⟨g1, lo, g2, _⟩ := rehash_mem.1 hb
      exact ⟨g1.1, by
        show (nd0 i).low ≠ none
        have g2 : (nd0 i).low = some lo := g2
        simp [g2]⟩
    · intro i hf
      rw [ek0] at hf
      obtain ⟨g1, g2⟩ := rehash_free.1 hf
      have g1 : 2 ≤ i ∧ i < 2 + (kd.size - 2) := g1
      rw [ekd] at g1
      have := h.si.cr.sz
      have g1 : 2 ≤ i ∧ i < 2 + (s.size - 2) := g1
      refine ⟨g1.1, by rw [k0sz]; omega, by rw [k0nd]; exact g2⟩
    · rw [ek0]
      exact List.Nodup.filter _ List.nodup_range'
    · intro i h2 hr
      rw [k0nd] at hr ⊢
      rw [h0ref] at hr
      have hi := h.si.rf.xz i (hkp i (hrefd i h2 hr).1)
      obtain ⟨_, e2, _⟩ := hcore i hi
      obtain ⟨lo, n1, _⟩ := h.si.cr.node i hi
      rw [e2]
      have n1 : (s.nd i).low = some lo := n1
      simp [n1]
    · rw [k0st]; simp
    · intro t l hl
      rw [ek0] at hl
      cases hl
    · intro t l hl
      rw [ek0] at hl
      cases hl
    · intro t l hl
      rw [ek0] at hl
      cases hl
  -- the marks are the same
  have hclo0 : Clo nd0 s.n (fun i => s.v2l (s.nd i).lvl) L := ⟨fun i hi => by
    obtain ⟨a1, a2, lo, a3, a4⟩ := hclo.node i hi
    obtain ⟨_, e2, e3⟩ := hcore i hi
    exact ⟨a1, a2, lo, e2.trans a3, by rw [e3]; exact a4⟩⟩
  have hrefL : ∀ i, 0 < (ndd i).ref → i < 2 ∨ i ∈ L := fun i hr => by
    by_cases h2 : i < 2
    · exact .inl h2
    · exact .inr (h.si.rf.xz i (hkp i (hrefd i (by omega) hr).1))
  have hmarks : marks kd = marks k0 := by
    unfold marks
    have e1 : kd.stack = [] := by rw [ekd]; exact hst
    have e2 : kd.size = s.size := by rw [ekd]
    have e3 : kd.n = s.n := by rw [ekd, hn]
    rw [e1, e2, e3, k0st, k0sz, k0n, k0nd, kdnd]
    congr 1
    funext m i
    rw [h0ref]
    by_cases hr : 0 < (ndd i).ref
    · rw [if_pos hr, if_pos hr]
      exact mark_congr hclo0 (fun j hj => by rw [h0L j (.inr hj)]; exact ⟨rfl, rfl⟩) (hrefL i hr)
    · rw [if_neg hr, if_neg hr]
  have hmL : ∀ i, marks k0 i = true → i ∈ L := fun i hm => by
    obtain ⟨h2, lo, hl, _⟩ := (marks_spec hinv).2 i hm
    rw [k0nd] at hl
    exact hlive0 i h2 (by simp [hl])
  have hgb : gbc P kd = gbc P k0 := by
    have hnd : (fun i => if 2 ≤ i ∧ marks kd i = false then { kd.nd i with low := none } else kd.nd i : Nat → Node) =
        fun i => if 2 ≤ i ∧ marks k0 i = false then { k0.nd i with low := none } else k0.nd i := by
      funext i
      rw [hmarks, kdnd, k0nd]
      by_cases hi : i < 2 ∨ i ∈ L
      · rw [h0L i hi]
      · have hm : marks k0 i = false := by
          cases hm : marks k0 i with
          | false => rfl
          | true => exact absurd (.inr (hmL i hm)) hi
        have h2 : 2 ≤ i := by omega
        rw [if_pos ⟨h2, hm⟩, if_pos ⟨h2, hm⟩, e0]
        dsimp only
        rw [if_pos ⟨h2, fun g => hi (.inr g)⟩]
    unfold gbc
    dsimp only
    rw [hnd, ek0]
    rfl
  obtain ⟨hI, hS⟩ := gbc_spec hinv
  have hrefs : ∀ i, ((gbc P k0).nd i).ref = (ndd i).ref := fun i => by
    rw [hS.keep.refs, k0nd, h0ref]
  have hroot : ∀ j, 2 ≤ j → kp j = true → 0 < (ndd j).ref ∧ (ndd j).ref = (s.nd j).ref := fun j h2 hj => by
    have hx := hkp j hj
    have hj' := h.si.rf.xz j hx
    have hr : 0 < (s.nd j).ref := by
      have := h.si.rf.cnt j hj'
      unfold refs maxref at this
      omega
    rw [hdL j hj']
    dsimp only
    rw [if_pos hj]
    exact ⟨hr, rfl⟩
  have hreach : ∀ i, 0 < x i → kp i = true ∨ ∃ j, j < i ∧ kp j = true ∧ Reach nd0 (· = j) i := fun i hx => by
    have hi := h.si.rf.xz i hx
    have hr := hLr i hi
    rcases p4 i (by simp; omega) (by simpa using (hroots i).2 hx) with g | ⟨j, j1, j2, j3⟩
    · exact .inl g
    · have hj := h.si.rf.xz j (hkp j j2)
      exact .inr ⟨j, j1, j2, j3.map (R := (· = j)) hclo (fun y (e : y = j) => .inr (e ▸ hj)) (fun y hy => (hcore y hy).2)⟩
  have hpj : ∀ j i, kp j = true → Reach nd0 (· = j) i → Reach k0.nd (Root k0) i := fun j i hj hr => by
    rw [k0nd]
    induction hr with
    | root e =>
      refine .root (.inr ?_)
      rw [e, k0nd, h0ref]
      exact (hroot j (hLr j (h.si.rf.xz j (hkp j hj))).1 hj).1
    | low _ h3 h4 ih => exact .low ih h3 h4
    | high _ h3 h4 ih => exact .high ih h3 h4
  have hprot : ∀ i, 0 < x i → Prot k0 i := fun i hx => by
    rcases hreach i hx with g | ⟨j, _, j2, j3⟩
    · exact .inr (hpj i i g (.root rfl))
    · exact .inr (hpj j i j2 j3)
  refine ⟨gbc P k0, ?_, hI, ?_, ?_, ?_, ?_, ?_, ?_, ?_⟩
  · unfold rDone
    rw [p1]
    show some (gbc P _) = _
    rw [← hgb, ekd, ed]
  · have : ∀ i, i < 2 → ((gbc P k0).nd i).lvl = (gbc P k0).n := fun i hi => by
      have hc := hS.keep.core i (.inl hi)
      rw [(core_iff.1 hc).1, hS.keep.n, k0nd, h0L i (.inl hi), ed, k0n]
      dsimp only
      rw [if_neg (by omega)]
      exact h.si.cr.l0 i hi
    exact ⟨this 0 (by omega), this 1 (by omega)⟩
  · rw [hS.keep.n, k0n, hn]
  · rw [hS.keep.stack, k0st]
  · rw [hS.keep.vars, ek0, ekd]; rfl
  · intro i hx
    obtain ⟨t, a1, _, a3⟩ := htree' i (.inr (h.si.rf.xz i hx))
    rw [← k0nd] at a1
    exact ⟨t, hS.keep.rep (hprot i hx) a1, a3⟩
  · intro i hx
    have hi2 := (hLr i (h.si.rf.xz i hx)).1
    rcases hreach i hx with g | ⟨j, j1, j2, j3⟩
    · exact .inl (by rw [hrefs]; exact (hroot i hi2 g).1)
    · have hj2 := (hLr j (h.si.rf.xz j (hkp j j2))).1
      refine .inr ⟨j, j1, by rw [hrefs]; exact (hroot j hj2 j2).1, hkp j j2, ?_⟩
      have key : ∀ y, Reach nd0 (· = j) y → Reach (gbc P k0).nd (· = j) y := fun y hr => by
        induction hr with
        | root e => exact .root e
        | low hr' h3 h4 ih =>
          obtain ⟨_, c2, _⟩ := core_iff.1 (hS.keep.core _ (.inr (hpj j _ j2 hr')))
          rw [k0nd] at c2
          exact .low ih h3 (c2.trans h4)
        | high hr' h3 h4 ih =>
          obtain ⟨_, c2, c3⟩ := core_iff.1 (hS.keep.core _ (.inr (hpj j _ j2 hr')))
          rw [k0nd] at c2 c3
          rw [← c3]
          exact .high ih h3 (c2.trans h4)
      exact key i j3
  · intro i h2 hr
    rw [hrefs] at hr ⊢
    obtain ⟨g1, g2⟩ := hrefd i h2 hr
    have hx := hkp i g1
    refine ⟨hx, ?_⟩
    rw [g2]
    have := h.si.rf.cnt i (h.si.rf.xz i hx)
    unfold refs at this
    omega

/-! ### The whole reordering -/

/-- a kernel between two calls, with its tables -/
structure OInv (P : Par) (o : KO) : Prop where
  inv : Inv P o.k
  lv : Lv o.k
  tabs : Tabs o.k.n o.l2v o.v2l
  st : o.k.stack = []
  vlen : o.k.vars.length = o.k.n
  vars : ∀ (v p q : Nat), o.k.vars[v]? = some (p, q) → 0 < (o.k.nd p).ref ∧ 0 < (o.k.nd q).ref ∧
    Rep o.k.nd p (T.var (o.v2l v) true) ∧ Rep o.k.nd q (T.var (o.v2l v) false)
  seg : ∀ (v p q : Nat), o.k.vars[v]? = some (p, q) → ∀ j, 2 ≤ j → j ≤ p ∨ j ≤ q →
    ∃ v' p' q' : Nat, o.k.vars[v']? = some (p', q') ∧ (j = p' ∨ j = q')

theorem rep_var {nd : Nat → Node} {i v : Nat} {b : Bool} (h : Rep nd i (T.var v b)) :
    2 ≤ i ∧ (nd i).lvl = v ∧ ∃ lo, (nd i).low = some lo ∧ lo < 2 ∧ (nd i).high < 2 := by
  have h2 : 2 ≤ i := by
    by_cases hi : 2 ≤ i
    · exact hi
    · have := h.lt2 (by omega)
      cases this
  obtain ⟨lo, l, hh, e1, e2, e3, e4⟩ := h.ge2 h2
  unfold T.var at e4
  injection e4 with f1 f2 f3
  subst f2 f3
  refine ⟨h2, f1.symm, lo, e1, ?_, ?_⟩
  · rw [e2.leaf_idx]; split <;> omega
  · rw [e3.leaf_idx]; split <;> omega

/-- every level has a node with references -/
theorem OInv.top {ob : KO} (h : OInv P ob) : ∀ l, l < ob.k.n → ∃ p, 2 ≤ p ∧ 0 < (ob.k.nd p).ref ∧ (ob.k.nd p).lvl = l := fun l hl => by
  obtain ⟨v1, v2⟩ := h.tabs.vl l hl
  obtain ⟨⟨p, q⟩, hp⟩ : ∃ pq, ob.k.vars[ob.l2v l]? = some pq := ⟨_, List.getElem?_eq_getElem (by rw [h.vlen]; exact v1)⟩
  obtain ⟨a1, _, a3, _⟩ := h.vars _ p q hp
  obtain ⟨b1, b2, _⟩ := rep_var a3
  exact ⟨p, b1, a1, by rw [b2, v2]⟩

/-- what a reordering keeps -/
structure OKeep (o o' : KO) : Prop where
  n : o'.k.n = o.k.n
  vars : o'.k.vars = o.k.vars
  rep : ∀ i t, 0 < (o.k.nd i).ref → Rep o.k.nd i t → ∃ t', Rep o'.k.nd i t' ∧
    ∀ ρ : Nat → Bool, (t'.eval fun l => ρ (o'.l2v l)) = t.eval fun l => ρ (o.l2v l)
  ref : ∀ i, 2 ≤ i → 0 < (o.k.nd i).ref → 0 < (o'.k.nd i).ref ∨
    ∃ j, 2 ≤ j ∧ j < i ∧ 0 < (o'.k.nd j).ref ∧ 0 < (o.k.nd j).ref ∧ Reach o'.k.nd (· = j) i
  mono : ∀ i, 2 ≤ i → 0 < (o'.k.nd i).ref → 0 < (o.k.nd i).ref ∧ ((o.k.nd i).ref ≤ (o'.k.nd i).ref ∨ maxref ≤ (o'.k.nd i).ref)

/-- a reordering that runs `f` between set-up and end -/
theorem around_spec {ob : KO} {f : RS → Option RS} (h : OInv P ob)
    (hf : ∀ s L, RI Q ob.k.size (xRef ob.k) (dOf ob.k.nd ob.l2v) L s → s.n = ob.k.n → s.v2l = ob.v2l → s.l2v = ob.l2v →
      ∃ s' D' L', f s = some s' ∧ RI Q ob.k.size (xRef ob.k) D' L' s' ∧ s'.n = s.n ∧
        ∀ i, i < 2 ∨ 0 < xRef ob.k i → D' i = dOf ob.k.nd ob.l2v i) :
    ∃ s s1 k1, rInit Q ob.k ob.l2v ob.v2l = some s ∧ f s = some s1 ∧ rDone P ob.k (extRoots ob.k.size ob.k.nd) s1 = some k1 ∧
      Inv P k1 ∧ Lv k1 ∧ k1.stack = [] ∧ Tabs k1.n s1.l2v s1.v2l ∧ OKeep ob ⟨k1, s1.l2v, s1.v2l⟩ := by
  obtain ⟨s, L, a1, a2, a3, a4, a5⟩ := rInit_spec (Q := Q) h.inv h.lv h.tabs h.top
  obtain ⟨s1, D1, L1, b1, b2, b3, b4⟩ := hf s L a2 a3 a4 a5
  have hx : ∀ i, 0 < xRef ob.k i ↔ 2 ≤ i ∧ 0 < (ob.k.nd i).ref := fun i => by
    unfold xRef; split <;> simp_all
  obtain ⟨k1, c1, c2, c3, c4, c5, c6, c7, c8, c9⟩ := rDone_spec (P := P) (k := ob.k) (roots := extRoots ob.k.size ob.k.nd) b2 (b3.trans a3) h.st (fun i => by
    rw [mem_extRoots, hx]
    constructor
    · exact fun g => ⟨g.1.1, g.2⟩
    · exact fun g => ⟨⟨g.1, (h.inv.live i g.1 (h.inv.rlive i g.1 g.2)).1⟩, g.2⟩)
  refine ⟨s, s1, k1, a1, b1, c1, c2, c3, c5, ?_, ⟨c4, c6, ?_, ?_, ?_⟩⟩
  · rw [c4, ← a3, ← b3]
    exact ⟨b2.lv, b2.vl⟩
  · intro i t hr ht
    by_cases h2 : i < 2
    · have := ht.lt2 h2
      subst this
      exact ⟨_, .leaf h2, fun ρ => rfl⟩
    · have hxi := (hx i).2 ⟨by omega, hr⟩
      obtain ⟨t', g1, g2⟩ := c7 i hxi
      refine ⟨t', g1, fun ρ => ?_⟩
      have := g2 ρ
      rw [b4 i (.inr hxi), dOf_rep ht] at this
      exact this
  · intro i h2 hr
    rcases c8 i ((hx i).2 ⟨h2, hr⟩) with g | ⟨j, j1, j2, j3, j4⟩
    · exact .inl g
    · exact .inr ⟨j, ((hx j).1 j3).1, j1, j2, ((hx j).1 j3).2, j4⟩
  · intro i h2 hr
    obtain ⟨g1, g2⟩ := c9 i h2 hr
    have e : xRef ob.k i = (ob.k.nd i).ref := by unfold xRef; rw [if_pos h2]
    rw [e] at g1 g2
    exact ⟨g1, g2⟩

theorem OKeep.oinv {ob o' : KO} (h : OInv P ob) (hk : OKeep ob o') (hi : Inv P o'.k) (hl : Lv o'.k) (hst : o'.k.stack = [])
    (ht : Tabs o'.k.n o'.l2v o'.v2l) : OInv P o' := by
  have hrep : ∀ (v i : Nat) (b : Bool), v < ob.k.n → 0 < (ob.k.nd i).ref → Rep ob.k.nd i (T.var (ob.v2l v) b) →
      Rep o'.k.nd i (T.var (o'.v2l v) b) := fun v i b hv hr h1 => by
    obtain ⟨t', a1, a2⟩ := hk.rep i _ hr h1
    have hv' : v < o'.k.n := by rw [hk.n]; exact hv
    have e : t' = T.var (o'.v2l v) b := by
      refine ht.canon (m' := 0) (hi.ord a1) ⟨Nat.zero_le _, (ht.lv v hv').1, by cases b <;> simp, trivial, trivial⟩ (funext fun ρ => ?_)
      rw [a2]
      show (if ρ (ob.l2v (ob.v2l v)) = true then _ else _) = (if ρ (o'.l2v (o'.v2l v)) = true then _ else _)
      rw [(h.tabs.lv v hv).2, (ht.lv v hv').2]
      rfl
    rw [← e]
    exact a1
  have hlit : ∀ (v p q : Nat), ob.k.vars[v]? = some (p, q) → Rep o'.k.nd p (T.var (o'.v2l v) true) ∧ Rep o'.k.nd q (T.var (o'.v2l v) false) :=
    fun v p q hv => by
      obtain ⟨a1, a2, a3, a4⟩ := h.vars v p q hv
      have hvn : v < ob.k.n := by rw [← h.vlen]; exact (List.getElem?_eq_some_iff.1 hv).1
      exact ⟨hrep v p true hvn a1 a3, hrep v q false hvn a2 a4⟩
  have hkid : ∀ j, 2 ≤ j → (∃ v p q : Nat, ob.k.vars[v]? = some (p, q) ∧ (j ≤ p ∨ j ≤ q)) → ∃ lo, (o'.k.nd j).low = some lo ∧ lo < 2 ∧ (o'.k.nd j).high < 2 := by
    rintro j h2 ⟨v, p, q, hv, hj⟩
    obtain ⟨v', p', q', hv', hj'⟩ := h.seg v p q hv j h2 hj
    obtain ⟨r1, r2⟩ := hlit v' p' q' hv'
    rcases hj' with rfl | rfl
    · exact (rep_var r1).2.2
    · exact (rep_var r2).2.2
  have hreach : ∀ i j, 2 ≤ j → (∃ v p q : Nat, ob.k.vars[v]? = some (p, q) ∧ (j ≤ p ∨ j ≤ q)) → Reach o'.k.nd (· = j) i → i = j ∨ i < 2 := by
    intro i j h2 hj hr
    induction hr with
    | root e => exact .inl e
    | low _ h3 h4 ih =>
      have e := ih.resolve_right (by omega)
      obtain ⟨lo, g1, g2, _⟩ := hkid j h2 hj
      rw [e, g1] at h4
      cases h4
      exact .inr g2
    | high _ h3 h4 ih =>
      have e := ih.resolve_right (by omega)
      obtain ⟨lo, _, _, g3⟩ := hkid j h2 hj
      rw [e]
      exact .inr g3
  have href : ∀ i, 2 ≤ i → 0 < (ob.k.nd i).ref → (∃ v p q : Nat, ob.k.vars[v]? = some (p, q) ∧ (i = p ∨ i = q)) → 0 < (o'.k.nd i).ref := by
    rintro i h2 hr ⟨v, p, q, hv, hi'⟩
    rcases hk.ref i h2 hr with g | ⟨j, j1, j2, _, _, j5⟩
    · exact g
    · rcases hreach i j j1 ⟨v, p, q, hv, by rcases hi' with e | e <;> omega⟩ j5 with e | e <;> omega
  refine ⟨hi, hl, ht, hst, by rw [hk.vars, hk.n, h.vlen], fun v p q hv => ?_, by rw [hk.vars]; exact h.seg⟩
  rw [hk.vars] at hv
  obtain ⟨a1, a2, a3, a4⟩ := h.vars v p q hv
  obtain ⟨r1, r2⟩ := hlit v p q hv
  exact ⟨href p (rep_var a3).1 a1 ⟨v, p, q, hv, .inl rfl⟩, href q (rep_var a4).1 a2 ⟨v, p, q, hv, .inr rfl⟩, r1, r2⟩

/-- any reordering -/
theorem reorder_spec {ob : KO} {ms : List (Bool × Nat)} (hgr : ∀ s, s < P.grow s) (hpos : ∀ t u v, ob.k.size ≤ t → Q.pos t u v < Q.cells t)
    (h : OInv P ob) (hm : ∀ m ∈ ms, m.2 < ob.k.n) : ∃ o', reorder P Q ms ob = some o' ∧ OInv P o' ∧ OKeep ob o' := by
  obtain ⟨s, s1, k1, a1, a2, a3, a4, a5, a6, a7, a8⟩ := around_spec (Q := Q) (f := moves P Q ms) h (fun s L hs hn _ _ => by
    obtain ⟨s', D', L', b1, b2, b3, b4⟩ := moves_spec hgr hpos (ms := ms) hs (fun m hmm => by rw [hn]; exact hm m hmm)
    exact ⟨s', D', L', b1, b2, b3, b4⟩)
  refine ⟨_, ?_, OKeep.oinv h a8 a4 a5 a6 a7, a8⟩
  unfold reorder
  rw [a1]
  show Option.bind (moves P Q ms s) _ = _
  rw [a2]
  show Option.bind (rDone P ob.k _ s1) _ = _
  rw [a3]
  rfl

/-- `SwapVariables` -/
theorem swapVariables_spec {ob : KO} {v1 v2 : Nat} (hgr : ∀ s, s < P.grow s) (hpos : ∀ t u v, ob.k.size ≤ t → Q.pos t u v < Q.cells t)
    (h : OInv P ob) (h1 : v1 < ob.k.n) (h2 : v2 < ob.k.n) : ∃ o', swapVariables P Q v1 v2 ob = some o' ∧ OInv P o' ∧
      (v1 = v2 ∧ o' = ob ∨ OKeep ob o') ∧
      ∀ w, w < ob.k.n → o'.v2l w = if w = v1 then ob.v2l v2 else if w = v2 then ob.v2l v1 else ob.v2l w := by
  unfold swapVariables
  by_cases hv : v1 = v2
  · rw [if_pos hv]
    refine ⟨ob, rfl, h, .inl ⟨hv, rfl⟩, fun w _ => ?_⟩
    subst hv
    by_cases w1 : w = v1
    · rw [if_pos w1, w1]
    · rw [if_neg w1, if_neg w1]
  · rw [if_neg hv, if_neg (by omega)]
    obtain ⟨ab, eab⟩ : ∃ ab, (if ob.v2l v2 < ob.v2l v1 then (v2, v1) else (v1, v2)) = ab := ⟨_, rfl⟩
    obtain ⟨a, b⟩ := ab
    rw [eab]
    dsimp only
    have hab : a < ob.k.n ∧ b < ob.k.n ∧ ob.v2l a ≤ ob.v2l b ∧ a ≠ b ∧ ((a = v1 ∧ b = v2) ∨ (a = v2 ∧ b = v1)) := by
      by_cases hc : ob.v2l v2 < ob.v2l v1
      · rw [if_pos hc] at eab
        cases eab
        exact ⟨h2, h1, by omega, fun e => hv e.symm, .inr ⟨rfl, rfl⟩⟩
      · rw [if_neg hc] at eab
        cases eab
        exact ⟨h1, h2, by omega, hv, .inl ⟨rfl, rfl⟩⟩
    obtain ⟨ha, hb, hle, hne, hor⟩ := hab
    have hla := h.tabs.lv a ha
    have hlb := h.tabs.lv b hb
    have hlt : ob.v2l a < ob.v2l b := by
      rcases Nat.lt_or_ge (ob.v2l a) (ob.v2l b) with g | g
      · exact g
      · exact absurd (by rw [← hla.2, ← hlb.2, show ob.v2l a = ob.v2l b by omega]) hne
    have hrun : ∀ s L, RI Q ob.k.size (xRef ob.k) (dOf ob.k.nd ob.l2v) L s → s.n = ob.k.n → s.v2l = ob.v2l → s.l2v = ob.l2v →
        ∃ s' D' L', ((downTo P Q a (ob.v2l b) ob.k.n s).bind (upTo P Q b (ob.v2l a) ob.k.n)) = some s' ∧
          RI Q ob.k.size (xRef ob.k) D' L' s' ∧ s'.n = s.n ∧ (∀ i, i < 2 ∨ 0 < xRef ob.k i → D' i = dOf ob.k.nd ob.l2v i) ∧
          ∀ w, w < ob.k.n → s'.v2l w = if w = v1 then ob.v2l v2 else if w = v2 then ob.v2l v1 else ob.v2l w := by
      intro s L hs hn hv2 _
      obtain ⟨s1, D1, L1, p1, p2, p3, p4, p5⟩ := downTo_spec (a := a) (l := ob.v2l b) (f := ob.k.n) hgr hpos hs (by omega) (by omega)
        (by rw [hv2]; exact hle) (by omega)
      rw [hv2] at p5
      have e1 := p5 b (by omega)
      rw [if_neg (fun e => hne e.symm), if_pos (by omega)] at e1
      obtain ⟨s2, D2, L2, q1, q2, q3, q4, q5⟩ := upTo_spec (a := b) (l := ob.v2l a) (f := ob.k.n) hgr hpos p2 (by omega) (by omega)
        (by omega)
      refine ⟨s2, D2, L2, by rw [p1]; exact q1, q2, q3.trans p3, fun i hi => (q4 i hi).trans (p4 i hi), fun w hw => ?_⟩
      rw [q5 w (by omega), e1, p5 w (by omega)]
      have hwa : w ≠ a → ob.v2l w ≠ ob.v2l a := fun e e' => e (by rw [← hla.2, ← e', (h.tabs.lv w hw).2])
      have hwb : w ≠ b → ob.v2l w ≠ ob.v2l b := fun e e' => e (by rw [← hlb.2, ← e', (h.tabs.lv w hw).2])
      have goal : (if w = b then ob.v2l a else if ob.v2l a ≤ (if w = a then ob.v2l b else if ob.v2l a < ob.v2l w ∧ ob.v2l w ≤ ob.v2l b then ob.v2l w - 1 else ob.v2l w) ∧
            (if w = a then ob.v2l b else if ob.v2l a < ob.v2l w ∧ ob.v2l w ≤ ob.v2l b then ob.v2l w - 1 else ob.v2l w) < ob.v2l b - 1 then
            (if w = a then ob.v2l b else if ob.v2l a < ob.v2l w ∧ ob.v2l w ≤ ob.v2l b then ob.v2l w - 1 else ob.v2l w) + 1 else
            (if w = a then ob.v2l b else if ob.v2l a < ob.v2l w ∧ ob.v2l w ≤ ob.v2l b then ob.v2l w - 1 else ob.v2l w)) =
          if w = a then ob.v2l b else if w = b then ob.v2l a else ob.v2l w := by
        by_cases wa : w = a
        · rw [if_neg (fun e => hne (wa.symm.trans e)), if_pos wa, if_pos wa, if_neg (by omega)]
        · rw [if_neg wa, if_neg wa]
          by_cases wb : w = b
          · rw [if_pos wb, if_pos wb]
          · rw [if_neg wb, if_neg wb]
            have g1 := hwa wa
            have g2 := hwb wb
            by_cases hc : ob.v2l a < ob.v2l w ∧ ob.v2l w ≤ ob.v2l b
            · rw [if_pos hc, if_pos (by omega)]; omega
            · rw [if_neg hc, if_neg (by omega)]
      rw [goal]
      rcases hor with ⟨e, e'⟩ | ⟨e, e'⟩
      · rw [e, e']
      · rw [e, e']
        by_cases g1 : w = v1
        · rw [if_pos g1, if_pos g1, if_neg (fun e => hv (g1.symm.trans e))]
        · rw [if_neg g1, if_neg g1]
    obtain ⟨s, s1, k1, a1, a2, a3, a4, a5, a6, a7, a8⟩ := around_spec (Q := Q) (f := fun s => (downTo P Q a (ob.v2l b) ob.k.n s).bind (upTo P Q b (ob.v2l a) ob.k.n)) h
      (fun s L g1 g2 g3 g4 => by
        obtain ⟨s', D', L', b1, b2, b3, b4, _⟩ := hrun s L g1 g2 g3 g4
        exact ⟨s', D', L', b1, b2, b3, b4⟩)
    obtain ⟨s0, L0, c1, c2, c3, c4, c5⟩ := rInit_spec (Q := Q) h.inv h.lv h.tabs h.top
    have : s0 = s := Option.some.inj (c1.symm.trans a1)
    subst this
    obtain ⟨s', D', L', b1, b2, b3, b4, b5⟩ := hrun s0 L0 c2 c3 c4 c5
    have : s' = s1 := Option.some.inj (b1.symm.trans a2)
    subst this
    refine ⟨_, ?_, OKeep.oinv h a8 a4 a5 a6 a7, .inr a8, b5⟩
    rw [a1]
    obtain ⟨sd, d1, d2⟩ := Option.bind_eq_some_iff.1 a2
    show Option.bind (downTo P Q a (ob.v2l b) ob.k.n s0) _ = _
    rw [d1]
    show Option.bind (upTo P Q b (ob.v2l a) ob.k.n sd) _ = _
    rw [d2]
    show Option.bind (rDone P ob.k _ s') _ = _
    rw [a3]
    rfl

end Done

end Verif.Bdd
