import Verif.Bdd.ReorderInv
import Mathlib.Data.List.Nodup
import Mathlib.Data.List.Flatten
/-
Specification of `reorderVardown` and `reorderVarup`.
-/
namespace Verif.Bdd

theorem mem_pushes {f : Nat → List Nat} {i : Nat} : ∀ {ps t : List Nat},
    i ∈ ps.foldl (fun t p => (f p).reverse ++ t) t ↔ i ∈ t ∨ ∃ p ∈ ps, i ∈ f p
  | [], t => by simp
  | p :: ps, t => by
    rw [List.foldl_cons, mem_pushes]
    simp
    tauto

theorem nodup_pushes {f : Nat → List Nat} (hn : ∀ p, (f p).Nodup) (hd : ∀ p q i, i ∈ f p → i ∈ f q → p = q) :
    ∀ {ps t : List Nat}, ps.Nodup → t.Nodup → (∀ p ∈ ps, ∀ i ∈ t, i ∉ f p) →
    (ps.foldl (fun t p => (f p).reverse ++ t) t).Nodup
  | [], t, _, ht, _ => ht
  | p :: ps, t, hp, ht, hh => by
    rw [List.foldl_cons]
    obtain ⟨h1, h2⟩ := List.nodup_cons.1 hp
    refine nodup_pushes hn hd h2 ?_ ?_
    · refine List.nodup_append.2 ⟨List.nodup_reverse.2 (hn p), ht, fun i hi j hj e => ?_⟩
      subst e
      exact hh p (by simp) i hj (List.mem_reverse.1 hi)
    · intro q hq i hi hiq
      rcases List.mem_append.1 hi with hi | hi
      · rw [hd p q i (List.mem_reverse.1 hi) hiq] at h1
        exact h1 hq
      · exact hh q (by simp [hq]) i hi hiq

/-- the order after the swap -/
def swapO (o : Nat → Nat) (a b : Nat) : Nat → Nat := upd (upd o a (o b)) b (o a)

section Down
variable {P : Par} {Q : RPar} {o : Nat → Nat} {a b : Nat} {x : Nat → Nat} {D : Nat → Fn} {L : List Nat} {s : RS}

theorem swapO_a (hab : a ≠ b) : swapO o a b a = o b := by
  unfold swapO
  rw [upd_ne _ _ hab, upd_self]

theorem swapO_b : swapO o a b b = o a := by simp [swapO]

theorem swapO_ne {w : Nat} (h1 : w ≠ a) (h2 : w ≠ b) : swapO o a b w = o w := by
  unfold swapO
  rw [upd_ne _ _ h2, upd_ne _ _ h1]

theorem onVar_iff {nd : Nat → Node} {b i lo : Nat} (h : (cores nd i).2.1 = some lo) :
    onVar nd b i = true ↔ ∃ d ∈ kids (cores nd) i, (cores nd d).1 = b := by
  have h' : (nd i).low = some lo := h
  rw [kids_some h]
  unfold onVar
  rw [h']
  simp [cores, Node.core]

theorem setv_comm {ρ : Nat → Bool} {v w : Nat} {c d : Bool} (h : v ≠ w) : setv (setv ρ v c) w d = setv (setv ρ w d) v c := by
  funext y
  unfold setv
  by_cases h1 : y = v <;> by_cases h2 : y = w <;> simp_all

theorem downSimple_spec {a' b' : Nat} (h : SI Q o a' b' x [] [] D L s) (hpos : ∀ u v, Q.pos s.tsz u v < Q.cells s.tsz)
    (ha : a < s.n) (hb : b < s.n) (hab : o b = o a + 1) :
    SI Q (swapO o a b) a b x (downSimple Q s a b).1 [] D L (downSimple Q s a b).2 := by
  have hne : a ≠ b := by rintro rfl; omega
  have ea : swapO o a b a = o a + 1 := (swapO_a hne).trans hab
  have eb : swapO o a b b = o a := swapO_b
  have hT : ∀ i, i ∈ (downSimple Q s a b).1 ↔ i ∈ L ∧ (cores s.nd i).1 = a ∧ ∃ d ∈ kids (cores s.nd) i, (cores s.nd d).1 = b := by
    intro i
    unfold downSimple
    rw [mem_pushes (f := fun p => (s.ch a p).filter (onVar s.nd b))]
    constructor
    · rintro (hi | ⟨p, hp, hi⟩)
      · cases hi
      · obtain ⟨m1, m2⟩ := List.mem_filter.1 hi
        obtain ⟨k1, _, k3, lo, k4, _⟩ := h.ch.mem _ _ _ m1
        exact ⟨k1, k3, (onVar_iff k4).1 m2⟩
    · rintro ⟨h1, h2, h3⟩
      obtain ⟨lo, n1, _⟩ := h.cr.node i h1
      refine .inr ⟨Q.pos s.tsz lo (cores s.nd i).2.2, by simpa using hpos _ _, List.mem_filter.2 ⟨?_, (onVar_iff n1).2 h3⟩⟩
      have := h.ch.all i h1 (by simp) lo n1
      rw [h2] at this
      exact this
  have hord : ∀ i ∈ L, ∀ d ∈ kids (cores s.nd) i, 2 ≤ d → o (cores s.nd i).1 < o (cores s.nd d).1 :=
    fun i hi d hd h2 => h.cr.ord i hi (by simp) d hd h2
  have hlt2 : ∀ d, d < 2 → (cores s.nd d).1 ≠ b := fun d hd e => by
    rw [h.cr.l0 d hd] at e; omega
  have hconst : ∀ d, d < 2 → ∀ w, Ind (D d) w := fun d hd w => by
    have : d = 0 ∨ d = 1 := by omega
    rcases this with rfl | rfl
    · rw [h.cr.d0]; exact fun _ _ => rfl
    · rw [h.cr.d1]; exact fun _ _ => rfl
  have hindk : ∀ i ∈ L, ∀ d ∈ kids (cores s.nd) i, ∀ w, w < s.n → (2 ≤ d → o w < o (cores s.nd d).1) → Ind (D d) w := by
    intro i hi d hd w hw ho
    by_cases h2 : d < 2
    · exact hconst d h2 w
    · exact h.cr.ind d ((h.cr.kid hi hd).resolve_left h2) w hw (ho (by omega)) (by simp)
  refine ⟨?_, ?_, ?_⟩
  · show Cr s.n s.size _ a b _ D L (cores s.nd)
    constructor
    · exact h.cr.sz
    · exact h.cr.lnd
    · exact h.cr.rng
    · exact h.cr.d0
    · exact h.cr.d1
    · exact h.cr.l0
    · exact h.cr.node
    · exact h.cr.inj
    · intro i hi w hw hlt hTb
      obtain ⟨lo, n1, n2, n3, n4, n5⟩ := h.cr.node i hi
      by_cases hold : o w < o (cores s.nd i).1
      · exact h.cr.ind i hi w hw hold (by simp)
      · have hwi : w = b ∧ (cores s.nd i).1 = a := by
          by_cases w1 : w = a
          · subst w1
            rw [ea] at hlt
            by_cases i1 : (cores s.nd i).1 = w
            · rw [i1, ea] at hlt; omega
            · by_cases i2 : (cores s.nd i).1 = b
              · rw [i2, eb] at hlt; omega
              · rw [swapO_ne i1 i2] at hlt; omega
          · by_cases w2 : w = b
            · subst w2
              refine ⟨rfl, ?_⟩
              rw [eb] at hlt
              by_cases i1 : (cores s.nd i).1 = a
              · exact i1
              · exfalso
                by_cases i2 : (cores s.nd i).1 = w
                · rw [i2, eb] at hlt; omega
                · rw [swapO_ne i1 i2] at hlt
                  have : o (cores s.nd i).1 ≠ o w := fun e => i2 (h.cr.oinj _ _ n2 hw e)
                  omega
            · exfalso
              rw [swapO_ne w1 w2] at hlt
              by_cases i1 : (cores s.nd i).1 = a
              · rw [i1, ea] at hlt
                rw [i1] at hold
                have : o w ≠ o a := fun e => w1 (h.cr.oinj _ _ hw ha e)
                omega
              · by_cases i2 : (cores s.nd i).1 = b
                · rw [i2, eb] at hlt
                  rw [i2] at hold
                  omega
                · rw [swapO_ne i1 i2] at hlt; omega
        obtain ⟨rfl, hia⟩ := hwi
        have hnT : i ∉ (downSimple Q s a w).1 := fun ht => hTb ht rfl
        have hk : ∀ d ∈ kids (cores s.nd) i, Ind (D d) w := fun d hd => hindk i hi d hd w hw fun h2 => by
          have h3 := hord i hi d hd h2
          rw [hia] at h3
          have h4 : (cores s.nd d).1 ≠ w := fun e => hnT ((hT i).2 ⟨hi, hia, d, hd, e⟩)
          have hdL := (h.cr.kid hi hd).resolve_left (by omega)
          obtain ⟨_, _, n2', _⟩ := h.cr.node d hdL
          have : o (cores s.nd d).1 ≠ o w := fun e => h4 (h.cr.oinj _ _ n2' hw e)
          omega
        rw [kids_some n1] at hk
        exact Ind.ite n5 (by rw [hia]; exact Ne.symm hne) (hk lo (by simp)) (hk _ (by simp))
    · exact h.cr.dep
    · intro i ht hI
      obtain ⟨hi, hia, d, hd, hdb⟩ := (hT i).1 ht
      obtain ⟨lo, n1, n2, n3, n4, n5⟩ := h.cr.node i hi
      have hd2 : ¬d < 2 := fun h2 => hlt2 d h2 hdb
      have hdL := (h.cr.kid hi hd).resolve_left hd2
      have hdep := h.cr.dep d hdL
      rw [hdb] at hdep
      rw [hia] at n5
      have hIa : ∀ e ∈ kids (cores s.nd) i, Ind (D e) a := fun e he => hindk i hi e he a ha fun h2 => by
        have := hord i hi e he h2
        rw [hia] at this
        exact this
      have hrel : ∃ c : Bool, ∀ ρ, D d ρ = D i (setv ρ a c) := by
        rw [kids_some n1] at hd hIa
        simp at hd
        rcases hd with rfl | rfl
        · exact ⟨false, ite_low n5 (hIa _ (by simp))⟩
        · exact ⟨true, ite_high n5 (hIa _ (by simp))⟩
      obtain ⟨c, hc⟩ := hrel
      refine hdep fun ρ v => ?_
      rw [hc, hc, setv_comm (Ne.symm hne), hI]
    · intro i hi ht d hd h2
      have h3 := hord i hi d hd h2
      have hdL := (h.cr.kid hi hd).resolve_left (by omega)
      obtain ⟨_, _, nd2, _⟩ := h.cr.node d hdL
      obtain ⟨_, _, ni2, _⟩ := h.cr.node i hi
      by_cases i1 : (cores s.nd i).1 = a
      · have d2 : (cores s.nd d).1 ≠ b := fun e => ht ((hT i).2 ⟨hi, i1, d, hd, e⟩)
        have d1 : (cores s.nd d).1 ≠ a := fun e => by rw [i1, e] at h3; omega
        rw [i1, ea, swapO_ne d1 d2]
        rw [i1] at h3
        have : o (cores s.nd d).1 ≠ o b := fun e => d2 (h.cr.oinj _ _ nd2 hb e)
        omega
      · by_cases i2 : (cores s.nd i).1 = b
        · rw [i2] at h3
          have d1 : (cores s.nd d).1 ≠ a := fun e => by rw [e] at h3; omega
          have d2 : (cores s.nd d).1 ≠ b := fun e => by rw [e] at h3; omega
          rw [i2, eb, swapO_ne d1 d2]
          omega
        · rw [swapO_ne i1 i2]
          by_cases d1 : (cores s.nd d).1 = a
          · rw [d1] at h3; rw [d1, ea]; omega
          · by_cases d2 : (cores s.nd d).1 = b
            · rw [d2] at h3; rw [d2, eb]
              have : o (cores s.nd i).1 ≠ o a := fun e => i1 (h.cr.oinj _ _ ni2 ha e)
              omega
            · rw [swapO_ne d1 d2]; exact h3
    · intro i hi hib d hd ht
      obtain ⟨hdL, hda, _⟩ := (hT d).1 ht
      have := hord i hi d hd (h.cr.rng d hdL).1
      rw [hib, hda] at this
      omega
    · intro i ht
      obtain ⟨hi, hia, _⟩ := (hT i).1 ht
      refine ⟨hi, hia, fun d hd h2 => ?_⟩
      have h3 := hord i hi d hd h2
      rw [hia] at h3
      have hdL := (h.cr.kid hi hd).resolve_left (by omega)
      obtain ⟨_, _, nd2, _⟩ := h.cr.node d hdL
      have d1 : (cores s.nd d).1 ≠ a := fun e => by rw [e] at h3; omega
      by_cases d2 : (cores s.nd d).1 = b
      · refine .inr ⟨d2, fun e he h4 => ?_⟩
        have h5 := hord d hdL e he h4
        rw [d2] at h5
        rw [ea, swapO_ne (fun e' => by rw [e'] at h5; omega) (fun e' => by rw [e'] at h5; omega)]
        omega
      · left
        rw [ea, swapO_ne d1 d2]
        have : o (cores s.nd d).1 ≠ o b := fun e => d2 (h.cr.oinj _ _ nd2 hb e)
        omega
    · refine nodup_pushes (f := fun p => (s.ch a p).filter (onVar s.nd b)) (fun p => (h.ch.nd a p).filter _) ?_ List.nodup_range
        List.nodup_nil (by simp)
      intro p q i hp hq
      obtain ⟨_, _, _, lo, k1, k2⟩ := h.ch.mem _ _ _ (List.mem_filter.1 hp).1
      obtain ⟨_, _, _, lo', k3, k4⟩ := h.ch.mem _ _ _ (List.mem_filter.1 hq).1
      rw [k1] at k3
      cases k3
      exact k2.symm.trans k4
    · intro v w hv hw e
      by_cases v1 : v = a
      · by_cases w1 : w = a
        · rw [v1, w1]
        · by_cases w2 : w = b
          · rw [v1, w2, ea, eb] at e; omega
          · rw [v1, ea, swapO_ne w1 w2] at e
            exact absurd (h.cr.oinj w b hw hb (by omega)) w2
      · by_cases v2 : v = b
        · by_cases w1 : w = a
          · rw [v2, w1, ea, eb] at e; omega
          · by_cases w2 : w = b
            · rw [v2, w2]
            · rw [v2, eb, swapO_ne w1 w2] at e
              exact absurd (h.cr.oinj w a hw ha (by omega)) w1
        · rw [swapO_ne v1 v2] at e
          by_cases w1 : w = a
          · rw [w1, ea] at e
            exact absurd (h.cr.oinj v b hv hb (by omega)) v2
          · by_cases w2 : w = b
            · rw [w2, eb] at e
              exact absurd (h.cr.oinj v a hv ha (by omega)) v1
            · rw [swapO_ne w1 w2] at e
              exact h.cr.oinj v w hv hw e
    · exact h.cr.out
  · show Chn Q s.size s.tsz _ L (upd s.ch a _) s.free (cores s.nd)
    constructor
    · intro v p i hi
      have hcase : i ∈ s.ch v p ∧ (v = a → p < Q.cells s.tsz → onVar s.nd b i = false) := by
        by_cases hv : v = a
        · subst hv
          rw [upd_self] at hi
          by_cases hp : p < Q.cells s.tsz
          · rw [if_pos hp] at hi
            have := List.mem_filter.1 (List.mem_reverse.1 hi)
            exact ⟨this.1, fun _ _ => by simpa using this.2⟩
          · rw [if_neg hp] at hi
            exact ⟨hi, fun _ h => absurd h hp⟩
        · rw [upd_ne _ _ hv] at hi
          exact ⟨hi, fun e => absurd e hv⟩
      obtain ⟨m1, m2, m3, lo, m4, m5⟩ := h.ch.mem v p i hcase.1
      refine ⟨m1, fun ht => ?_, m3, lo, m4, m5⟩
      obtain ⟨_, t2, t3⟩ := (hT i).1 ht
      have e1 := hcase.2 (m3.symm.trans t2) (m5 ▸ hpos _ _)
      rw [(onVar_iff m4).2 t3] at e1
      cases e1
    · intro i hi ht lo hl
      have := h.ch.all i hi (by simp) lo hl
      by_cases hv : (cores s.nd i).1 = a
      · rw [hv] at this ⊢
        rw [upd_self, if_pos (hpos _ _)]
        refine List.mem_reverse.2 (List.mem_filter.2 ⟨this, ?_⟩)
        cases hon : onVar s.nd b i with
        | false => rfl
        | true => exact absurd ((hT i).2 ⟨hi, hv, (onVar_iff hl).1 hon⟩) ht
      · rw [upd_ne _ _ hv]; exact this
    · intro v p
      by_cases hv : v = a
      · subst hv
        rw [upd_self]
        split
        · exact List.nodup_reverse.2 ((h.ch.nd v p).filter _)
        · exact h.ch.nd v p
      · rw [upd_ne _ _ hv]; exact h.ch.nd v p
    · exact h.ch.fmem
    · exact h.ch.fnd
  · exact h.rf

/-! ### Dropping nodes -/

/-- fewer nodes -/
theorem Cr.sub {n size a' b' : Nat} {L' : List Nat} {c c' : Co} (h : Cr n size o a b [] D L c) (hn : L'.Nodup) (hs : ∀ i ∈ L', i ∈ L)
    (hk : ∀ i ∈ L', ∀ d ∈ kids c i, 2 ≤ d → d ∈ L') (hc : ∀ i, (i < 2 ∨ i ∈ L') → c' i = c i)
    (hout : ∀ i, size ≤ i → (c' i).2.1 = none) : Cr n size o a' b' [] D L' c' where
  sz := h.sz
  lnd := hn
  rng i hi := h.rng i (hs i hi)
  d0 := h.d0
  d1 := h.d1
  l0 i hi := by rw [hc i (.inl hi)]; exact h.l0 i hi
  node i hi := by
    rw [hc i (.inr hi)]
    obtain ⟨lo, n1, n2, n3, n4, n5⟩ := h.node i (hs i hi)
    have hk := hk i hi
    rw [kids_some n1] at hk
    refine ⟨lo, n1, n2, ?_, ?_, n5⟩
    · by_cases h2 : lo < 2
      · exact .inl h2
      · exact .inr (hk lo (by simp) (by omega))
    · by_cases h2 : (c i).2.2 < 2
      · exact .inl h2
      · exact .inr (hk _ (by simp) (by omega))
  inj i j hi hj := h.inj i j (hi.imp id (hs i)) (hj.imp id (hs j))
  ind i hi w hw h1 _ := by
    rw [hc i (.inr hi)] at h1
    exact h.ind i (hs i hi) w hw h1 (by simp)
  dep i hi := by rw [hc i (.inr hi)]; exact h.dep i (hs i hi)
  depT i hi := by simp at hi
  ord i hi _ d hd h2 := by
    rw [kids_congr (hc i (.inr hi))] at hd
    rw [hc i (.inr hi), hc d (.inr (hk i hi d hd h2))]
    exact h.ord i (hs i hi) (by simp) d hd h2
  bT i hi _ d _ := by simp
  tT i hi := by simp at hi
  tnd := List.nodup_nil
  oinj := h.oinj
  out := hout

theorem Rf.zero {E : List Nat} {c : Co} {r : Nat → Nat} (h : Rf x E L c r) {q : Nat} (hq : q ∈ L) (hr : r q = 0) :
    x q = 0 ∧ Verif.Bdd.cnt c L q = 0 := by
  have := h.cnt q hq
  unfold maxref at this
  omega

/-- the chain at one position, replaced -/
def setCh (ch : Nat → Nat → List Nat) (b p : Nat) (l : List Nat) : Nat → Nat → List Nat := upd ch b (upd (ch b) p l)

theorem mem_setCh {ch : Nat → Nat → List Nat} {b p v q i : Nat} {l : List Nat} :
    i ∈ setCh ch b p l v q ↔ if v = b ∧ q = p then i ∈ l else i ∈ ch v q := by
  unfold setCh
  by_cases hv : v = b
  · subst hv
    rw [upd_self]
    by_cases hq : q = p
    · subst hq
      simp
    · rw [upd_ne _ _ hq]; simp [hq]
  · rw [upd_ne _ _ hv]; simp [hv]

theorem setCh_nd {ch : Nat → Nat → List Nat} {b p : Nat} {l : List Nat} (hc : ∀ v q, v ≠ b ∨ q ≠ p → (ch v q).Nodup) (hl : l.Nodup)
    (v q : Nat) : (setCh ch b p l v q).Nodup := by
  unfold setCh
  by_cases hv : v = b
  · subst hv
    rw [upd_self]
    by_cases hq : q = p
    · subst hq
      rw [upd_self]; exact hl
    · rw [upd_ne _ _ hq]; exact hc v q (.inr hq)
  · rw [upd_ne _ _ hv]; exact hc v q (.inl hv)

/-- what a local garbage collection keeps -/
structure Shr (s s' : RS) (L L' : List Nat) : Prop where
  n : s'.n = s.n
  l2v : s'.l2v = s.l2v
  v2l : s'.v2l = s.v2l
  mat : s'.mat = s.mat
  tsz : s'.tsz = s.tsz
  size : s'.size = s.size
  sub : ∀ i ∈ L', i ∈ L

theorem gbcChain_spec {p : Nat} : ∀ {qs acc : List Nat} {L : List Nat} {nd : Nat → Node} {fr : List Nat},
    SI Q o a b x [] [] D L { s with nd := nd, free := fr, ch := setCh s.ch b p (acc ++ qs) } →
    ∃ nd' fr' acc' L', gbcChain qs nd fr acc = some (nd', fr', acc') ∧
      SI Q o a b x [] [] D L' { s with nd := nd', free := fr', ch := setCh s.ch b p acc' } ∧ ∀ i ∈ L', i ∈ L
  | [], acc, L, nd, fr, h => ⟨nd, fr, acc, L, rfl, by simpa using h, fun _ h => h⟩
  | q :: qs, acc, L, nd, fr, h => by
    have hq : q ∈ setCh s.ch b p (acc ++ q :: qs) b p := by rw [mem_setCh]; simp
    obtain ⟨qL, _, qb, lo, q1, q2⟩ := h.ch.mem _ _ _ hq
    have hnd : (acc ++ q :: qs).Nodup := by
      have := h.ch.nd b p
      show List.Nodup _
      simpa [setCh] using this
    have hoth : ∀ v r, v ≠ b ∨ r ≠ p → (s.ch v r).Nodup := fun v r hvr => by
      have := h.ch.nd v r
      have e : setCh s.ch b p (acc ++ q :: qs) v r = s.ch v r := by
        unfold setCh
        rcases hvr with hv | hr
        · rw [upd_ne _ _ hv]
        · by_cases hv : v = b
          · subst hv; rw [upd_self, upd_ne _ _ hr]
          · rw [upd_ne _ _ hv]
      have this : (setCh s.ch b p (acc ++ q :: qs) v r).Nodup := this
      rwa [e] at this
    unfold gbcChain
    by_cases hr : 0 < (nd q).ref
    · rw [if_pos hr]
      have hmem : ∀ v r i, i ∈ setCh s.ch b p (q :: acc ++ qs) v r ↔ i ∈ setCh s.ch b p (acc ++ q :: qs) v r := fun v r i => by
        rw [mem_setCh, mem_setCh]
        split
        · simp; tauto
        · rfl
      have h' : SI Q o a b x [] [] D L { s with nd := nd, free := fr, ch := setCh s.ch b p (q :: acc ++ qs) } := by
        refine ⟨h.cr, ⟨fun v r i hi => h.ch.mem v r i ((hmem v r i).1 hi), fun i hi ht l hl => (hmem _ _ _).2 (h.ch.all i hi ht l hl),
          setCh_nd hoth ?_, h.ch.fmem, h.ch.fnd⟩, h.rf⟩
        exact (List.perm_middle.nodup_iff).1 hnd
      exact gbcChain_spec h'
    · rw [if_neg hr]
      have hr0 : refs nd q = 0 := by unfold refs; omega
      obtain ⟨xq, cq⟩ := h.rf.zero qL hr0
      have q1' : (nd q).low = some lo := q1
      rw [q1']
      have hcr : ∀ i, i ≠ q → cores (upd (decRef (decRef nd lo) (nd q).high) q
          { decRef (decRef nd lo) (nd q).high q with low := none }) i = cores nd i := fun i hi => by
        have e := (cores_decRef (decRef nd lo) (nd q).high).trans (cores_decRef nd lo)
        show Node.core (upd _ q _ i) = _
        rw [upd_ne _ _ hi]
        exact congrFun e i
      have hrf : refs (upd (decRef (decRef nd lo) (nd q).high) q
          { decRef (decRef nd lo) (nd q).high q with low := none }) = refs (decRef (decRef nd lo) (nd q).high) := by
        funext i
        show Node.ref (upd _ q _ i) = _
        by_cases hi : i = q
        · subst hi; rw [upd_self]; rfl
        · rw [upd_ne _ _ hi]; rfl
      have q2' := (h.cr.rng q qL).1
      have hmemE : ∀ i, i ∈ L.erase q ↔ i ≠ q ∧ i ∈ L := fun i => List.Nodup.mem_erase_iff h.cr.lnd
      have hkid : ∀ i ∈ L.erase q, ∀ d ∈ kids (cores nd) i, 2 ≤ d → d ∈ L.erase q := fun i hi d hd h2 => by
        obtain ⟨_, hi2⟩ := (hmemE i).1 hi
        refine (hmemE d).2 ⟨fun e => ?_, (h.cr.kid hi2 hd).resolve_left (by omega)⟩
        have := cnt_pos hi2 hd
        have cq : cnt (cores nd) L q = 0 := cq
        rw [e] at this
        omega
      have h' : SI Q o a b x [] [] D (L.erase q) { s with
          nd := upd (decRef (decRef nd lo) (nd q).high) q { decRef (decRef nd lo) (nd q).high q with low := none }
          free := q :: fr, ch := setCh s.ch b p (acc ++ qs) } := by
        refine ⟨?_, ⟨?_, ?_, ?_, ?_, ?_⟩, ?_⟩
        · refine h.cr.sub (h.cr.lnd.erase q) (fun i hi => ((hmemE i).1 hi).2) hkid (fun i hi => ?_) fun i hi => ?_
          · refine hcr i ?_
            rintro rfl
            rcases hi with hi | hi
            · omega
            · exact ((hmemE i).1 hi).1 rfl
          · show ((cores (upd _ q _)) i).2.1 = none
            by_cases hiq : i = q
            · subst hiq
              show (Node.core (upd _ i _ i)).2.1 = none
              rw [upd_self]; rfl
            · rw [hcr i hiq]; exact h.cr.out i hi
        · intro v r i hi
          have hi : i ∈ setCh s.ch b p (acc ++ qs) v r := hi
          have hiq : i ≠ q := by
            rintro rfl
            rw [mem_setCh] at hi
            split at hi
            · have := (List.perm_middle.nodup_iff).1 hnd
              exact (List.nodup_cons.1 this).1 hi
            · next hvr =>
              have hi' : i ∈ setCh s.ch b p (acc ++ i :: qs) v r := by rw [mem_setCh, if_neg hvr]; exact hi
              obtain ⟨_, _, k3, lo', k4, k5⟩ := h.ch.mem _ _ _ hi'
              rw [q1] at k4
              cases k4
              exact hvr ⟨k3.symm.trans qb, k5.symm.trans q2⟩
          have hi' : i ∈ setCh s.ch b p (acc ++ q :: qs) v r := by
            rw [mem_setCh] at hi ⊢
            by_cases hvr : v = b ∧ r = p
            · rw [if_pos hvr] at hi ⊢
              simp at hi ⊢; tauto
            · rw [if_neg hvr] at hi ⊢
              exact hi
          obtain ⟨k1, k2, k3⟩ := h.ch.mem _ _ _ hi'
          show _ ∧ _ ∧ (cores (upd _ q _) i).1 = v ∧ ∃ lo, (cores (upd _ q _) i).2.1 = _ ∧ _
          rw [hcr i hiq]
          exact ⟨(hmemE i).2 ⟨hiq, k1⟩, k2, k3⟩
        · intro i hi ht l
          obtain ⟨hiq, hi⟩ := (hmemE i).1 hi
          show (cores (upd _ q _) i).2.1 = _ → i ∈ setCh _ _ _ _ (cores (upd _ q _) i).1 (Q.pos s.tsz l (cores (upd _ q _) i).2.2)
          rw [hcr i hiq]
          intro hl
          have : i ∈ setCh s.ch b p (acc ++ q :: qs) (cores nd i).1 (Q.pos s.tsz l (cores nd i).2.2) := h.ch.all i hi ht l hl
          rw [mem_setCh] at this ⊢
          by_cases hvr : (cores nd i).1 = b ∧ Q.pos s.tsz l (cores nd i).2.2 = p
          · rw [if_pos hvr] at this ⊢
            simp at this ⊢; tauto
          · rw [if_neg hvr] at this ⊢
            exact this
        · exact setCh_nd hoth (((List.perm_middle.nodup_iff).1 hnd).tail)
        · intro i hi
          rcases List.mem_cons.1 hi with rfl | hi
          · exact ⟨fun hm => ((hmemE i).1 hm).1 rfl, h.cr.rng i qL⟩
          · obtain ⟨k1, k2⟩ := h.ch.fmem i hi
            exact ⟨fun hm => k1 ((hmemE i).1 hm).2, k2⟩
        · exact List.nodup_cons.2 ⟨fun hm => (h.ch.fmem q hm).1 qL, h.ch.fnd⟩
        · show Rf x [] _ (cores (upd _ q _)) (refs (upd _ q _))
          rw [hrf]
          have r0 : Rf x [lo, (nd q).high] (L.erase q) (cores (upd (decRef (decRef nd lo) (nd q).high) q
              { decRef (decRef nd lo) (nd q).high q with low := none })) (refs nd) := by
            constructor
            · intro i hi
              rw [cnt_congr (c := cores nd) fun j hj => hcr j ((hmemE j).1 hj).1]
              have := h.rf.cnt i ((hmemE i).1 hi).2
              have this : maxref ≤ refs nd i ∨ x i + List.count i [] + cnt (cores nd) L i ≤ refs nd i := this
              rw [cnt_erase qL, kids_some q1] at this
              have e : (cores nd q).2.2 = (nd q).high := rfl
              rw [e] at this
              simp only [List.count_nil] at this
              omega
            · intro i h2 hi
              by_cases hiq : i = q
              · rw [hiq]; exact hr0
              · exact h.rf.z i h2 fun hm => hi ((hmemE i).2 ⟨hiq, hm⟩)
            · intro i hx
              refine (hmemE i).2 ⟨?_, h.rf.xz i hx⟩
              rintro rfl
              omega
            · intro i hi
              have hkid' : ∀ d ∈ kids (cores nd) q, d < 2 ∨ d ∈ L.erase q := fun d hd => by
                by_cases h2 : d < 2
                · exact .inl h2
                · refine .inr ((hmemE d).2 ⟨?_, (h.cr.kid qL hd).resolve_left h2⟩)
                  rintro rfl
                  have := cnt_pos qL hd
                  have cq : cnt (cores nd) L d = 0 := cq
                  omega
              rw [kids_some q1] at hkid'
              exact hkid' i hi
          exact r0.dec.dec
      obtain ⟨nd', fr', acc', L', g1, g2, g3⟩ := gbcChain_spec h'
      exact ⟨nd', fr', acc', L', g1, g2, fun i hi => ((hmemE i).1 (g3 i hi)).2⟩

theorem localGbc_spec : ∀ {ps : List Nat} {L : List Nat} {s : RS}, SI Q o a b x [] [] D L s →
    ∃ s' L', localGbc b ps s = some s' ∧ SI Q o a b x [] [] D L' s' ∧ Shr s s' L L' ∧ s'.resized = s.resized
  | [], L, s, h => ⟨s, L, rfl, h, ⟨rfl, rfl, rfl, rfl, rfl, rfl, fun _ h => h⟩, rfl⟩
  | p :: ps, L, s, h => by
    have e : setCh s.ch b p ([] ++ s.ch b p) = s.ch := by
      funext v q
      unfold setCh
      by_cases hv : v = b
      · subst hv
        rw [upd_self]
        by_cases hq : q = p
        · subst hq; rw [upd_self]; rfl
        · rw [upd_ne _ _ hq]
      · rw [upd_ne _ _ hv]
    obtain ⟨nd', fr', acc', L', g1, g2, g3⟩ := gbcChain_spec (Q := Q) (o := o) (a := a) (b := b) (x := x) (D := D) (s := s) (p := p) (qs := s.ch b p)
      (acc := []) (L := L) (nd := s.nd) (fr := s.free) (by rw [e]; exact h)
    obtain ⟨s', L'', h1, h2, h3, h4⟩ := localGbc_spec (ps := ps) g2
    refine ⟨s', L'', ?_, h2, ⟨h3.n, h3.l2v, h3.v2l, h3.mat, h3.tsz, h3.size, fun i hi => g3 i (h3.sub i hi)⟩, h4⟩
    unfold localGbc
    rw [g1]
    exact h1

theorem rehashAll_spec (h : SI Q o a b x [] [] D L s) :
    ∃ L', SI Q o a b x [] [] D L' (rehashAll Q s) ∧ ∀ i ∈ L', i ∈ L := by
  have hmem : ∀ i, i ∈ L.filter (fun i => decide (0 < refs s.nd i)) ↔ i ∈ L ∧ 0 < refs s.nd i := fun i => by simp
  have hpos : ∀ i, 2 ≤ i → 0 < refs s.nd i → i ∈ L := fun i h2 hr => by
    by_cases hi : i ∈ L
    · exact hi
    · have := h.rf.z i h2 hi; omega
  refine ⟨L.filter fun i => decide (0 < refs s.nd i), ⟨?_, ?_, ?_⟩, fun i hi => ((hmem i).1 hi).1⟩
  · refine h.cr.sub (h.cr.lnd.filter _) (fun i hi => ((hmem i).1 hi).1) (fun i hi d hd h2 => ?_) (fun _ _ => rfl) h.cr.out
    obtain ⟨hi, _⟩ := (hmem i).1 hi
    have hdL := (h.cr.kid hi hd).resolve_left (by omega)
    refine (hmem d).2 ⟨hdL, ?_⟩
    have := h.rf.cnt d hdL
    have := cnt_pos hi hd
    unfold maxref at *
    omega
  · show Chn Q s.size s.size [] _ (chains Q s.size s.nd) _ (cores s.nd)
    constructor
    · intro v p i hi
      unfold chains at hi
      obtain ⟨hr, hc⟩ := List.mem_filter.1 hi
      have h2 : 2 ≤ i := by simp at hr; omega
      cases hl : (s.nd i).low with
      | none => rw [hl] at hc; cases hc
      | some lo =>
        rw [hl] at hc
        simp at hc
        exact ⟨(hmem i).2 ⟨hpos i h2 hc.1.1, hc.1.1⟩, by simp, hc.1.2, lo, hl, hc.2⟩
    · intro i hi _ lo hl
      obtain ⟨hiL, hr⟩ := (hmem i).1 hi
      obtain ⟨r1, r2⟩ := h.cr.rng i hiL
      unfold chains
      refine List.mem_filter.2 ⟨by simp; omega, ?_⟩
      have hl' : (s.nd i).low = some lo := hl
      rw [hl']
      have hr : 0 < (s.nd i).ref := hr
      simp [hr]
      exact ⟨rfl, rfl⟩
    · intro v p
      exact List.Nodup.filter _ List.nodup_range'
    · intro i hi
      obtain ⟨k1, k2⟩ := List.mem_filter.1 hi
      refine ⟨fun hm => ?_, by simp at k1; omega, by simp at k1; have := h.cr.sz; show i < s.size; omega⟩
      have := ((hmem i).1 hm).2
      have k2 : (s.nd i).ref = 0 := by simpa using k2
      unfold refs at this
      omega
    · exact List.Nodup.filter _ List.nodup_range'
  · constructor
    · intro i hi
      obtain ⟨hiL, hr⟩ := (hmem i).1 hi
      have h1 := h.rf.cnt i hiL
      have h2 : cnt (cores s.nd) (L.filter fun i => decide (0 < refs s.nd i)) i ≤ cnt (cores s.nd) L i := by
        unfold cnt
        exact (List.filter_sublist.flatMap _).count_le i
      show maxref ≤ refs s.nd i ∨ x i + List.count i [] + cnt (cores s.nd) _ i ≤ refs s.nd i
      omega
    · intro i h2 hi
      show refs s.nd i = 0
      by_cases hr : refs s.nd i = 0
      · exact hr
      · exact absurd ((hmem i).2 ⟨hpos i h2 (by omega), by omega⟩) hi
    · intro i hx
      refine (hmem i).2 ⟨h.rf.xz i hx, ?_⟩
      have := h.rf.cnt i (h.rf.xz i hx)
      unfold maxref at this
      omega
    · simp

/-! ### Moves -/

theorem SI.ab {a' b' : Nat} (h : SI Q o a b x [] [] D L s) : SI Q o a' b' x [] [] D L s :=
  ⟨h.cr.sub h.cr.lnd (fun _ h => h) (fun _ hi _ hd h2 => (h.cr.kid hi hd).resolve_left (by omega)) (fun _ _ => rfl) h.cr.out, h.ch, h.rf⟩

/-- invariant between the moves; `sz0` is the size of the table before the reordering -/
structure RI (Q : RPar) (sz0 : Nat) (x : Nat → Nat) (D : Nat → Fn) (L : List Nat) (s : RS) : Prop where
  si : SI Q s.v2l 0 0 x [] [] D L s
  lv : ∀ v, v < s.n → s.v2l v < s.n ∧ s.l2v (s.v2l v) = v
  vl : ∀ l, l < s.n → s.l2v l < s.n ∧ s.v2l (s.l2v l) = l
  mat : ∀ v w, v < s.n → w < s.n → (v, w) ∈ s.mat
  tsz : sz0 ≤ s.tsz
  size : sz0 ≤ s.size

theorem varDown_spec {sz0 : Nat} (hgr : ∀ s, s < P.grow s) (hpos : ∀ t u v, sz0 ≤ t → Q.pos t u v < Q.cells t)
    (h : RI Q sz0 x D L s) (ha : a < s.n) :
    ∃ s' D' L', varDown P Q s a = some s' ∧ RI Q sz0 x D' L' s' ∧ s'.n = s.n ∧ (∀ i, i < 2 ∨ 0 < x i → D' i = D i) ∧
      s'.v2l = if s.v2l a + 1 < s.n then swapO s.v2l a (s.l2v (s.v2l a + 1)) else s.v2l := by
  unfold varDown
  rw [if_neg (by omega)]
  by_cases hl : s.n ≤ s.v2l a + 1
  · rw [if_pos hl]
    exact ⟨s, D, L, rfl, h, rfl, fun _ _ => rfl, by rw [if_neg (by omega)]⟩
  · rw [if_neg hl]
    obtain ⟨hb, hbl⟩ := h.vl (s.v2l a + 1) (by omega)
    obtain ⟨b, eb⟩ : ∃ b, s.l2v (s.v2l a + 1) = b := ⟨_, rfl⟩
    simp only [eb]
    rw [eb] at hb hbl
    have hne : a ≠ b := by rintro rfl; omega
    rw [if_pos (h.mat a b ha hb)]
    have h0 : SI Q s.v2l 0 0 x [] [] D L { s with resized := false } := ⟨h.si.cr, h.si.ch, h.si.rf⟩
    have d := downSimple_spec (a := a) (b := b) h0 (hpos _ · · h.tsz) ha hb hbl
    have ea : swapO s.v2l a b a = s.v2l a + 1 := (swapO_a hne).trans hbl
    have eb' : swapO s.v2l a b b = s.v2l a := swapO_b
    obtain ⟨s1, D1, L1, p1, p2, p3⟩ := rSwap_spec hgr d (by rw [ea, eb']; omega) (fun v hv => by
      rw [ea, eb']; omega) ha hb
    obtain ⟨s2, L2, q1, q2, q3, q4⟩ := localGbc_spec (ps := List.range (Q.cells s1.tsz)) p2
    have en : s2.n = s.n := q3.n.trans p3.n
    have el : s2.l2v = s.l2v := q3.l2v.trans p3.l2v
    have ev : s2.v2l = s.v2l := q3.v2l.trans p3.v2l
    have hlv : (swapTabs s2 a (s.v2l a)).v2l = swapO s.v2l a b := by
      unfold swapTabs swapO
      simp only [el, ev, eb]
    have hvl : ∀ l, (swapTabs s2 a (s.v2l a)).l2v l = if l = s.v2l a then b else if l = s.v2l a + 1 then a else s.l2v l := by
      intro l
      unfold swapTabs
      simp only [el, eb, (h.lv a ha).2]
      unfold upd
      by_cases h1 : l = s.v2l a + 1
      · rw [if_pos h1, if_neg (by omega), if_pos h1]
      · rw [if_neg h1]
        split
        · rfl
        · first | rfl | rw [if_neg h1]
    have hsi : SI Q (swapO s.v2l a b) 0 0 x [] [] D1 L2 (swapTabs s2 a (s.v2l a)) := by
      have := q2.ab (a' := 0) (b' := 0)
      exact ⟨this.cr, this.ch, this.rf⟩
    have htab : (∀ v, v < s.n → swapO s.v2l a b v < s.n ∧ (swapTabs s2 a (s.v2l a)).l2v (swapO s.v2l a b v) = v) ∧
        ∀ l, l < s.n → (swapTabs s2 a (s.v2l a)).l2v l < s.n ∧ swapO s.v2l a b ((swapTabs s2 a (s.v2l a)).l2v l) = l := by
      constructor
      · intro v hv
        rw [hvl]
        by_cases v1 : v = a
        · subst v1
          rw [ea, if_neg (by omega), if_pos rfl]
          exact ⟨by omega, rfl⟩
        · by_cases v2 : v = b
          · subst v2
            rw [eb', if_pos rfl]
            exact ⟨(h.lv a ha).1, rfl⟩
          · rw [swapO_ne v1 v2]
            obtain ⟨k1, k2⟩ := h.lv v hv
            refine ⟨k1, ?_⟩
            rw [if_neg, if_neg, k2]
            · intro e; exact v2 (by rw [← k2, e, eb])
            · intro e; exact v1 (by rw [← k2, e, (h.lv a ha).2])
      · intro l hl'
        rw [hvl]
        by_cases l1 : l = s.v2l a
        · rw [if_pos l1, eb']; exact ⟨hb, l1.symm⟩
        · rw [if_neg l1]
          by_cases l2 : l = s.v2l a + 1
          · rw [if_pos l2, ea]; exact ⟨ha, l2.symm⟩
          · rw [if_neg l2]
            obtain ⟨k1, k2⟩ := h.vl l hl'
            refine ⟨k1, ?_⟩
            rw [swapO_ne, k2]
            · intro e; rw [e] at k2; exact l1 k2.symm
            · intro e; rw [e] at k2; omega
    have hD : ∀ i, i < 2 ∨ 0 < x i → D1 i = D i := fun i hi => p3.D i (hi.imp id (h.si.rf.xz i))
    have hsz : s.size ≤ s2.size := by rw [q3.size]; exact p3.size
    have hts : s2.tsz = s.tsz := q3.tsz.trans p3.tsz
    have hmt : s2.mat = s.mat := q3.mat.trans p3.mat
    have hrun : (do
        let s1 ← rSwap P Q a b (downSimple Q { s with resized := false } a b).1 (downSimple Q { s with resized := false } a b).2
        localGbc b (List.range (Q.cells s1.tsz)) s1 : Option RS) = some s2 := by
      rw [p1]
      exact q1
    rw [hrun]
    by_cases hr : (swapTabs s2 a (s.v2l a)).resized = true
    · obtain ⟨L3, r1, r2⟩ := rehashAll_spec hsi
      refine ⟨rehashAll Q (swapTabs s2 a (s.v2l a)), D1, L3, ?_, ⟨?_, ?_, ?_, ?_, ?_, ?_⟩, en, hD, by rw [if_pos (by omega)]; exact hlv⟩
      · show some (if _ then _ else _) = _
        rw [if_pos hr]
      · show SI Q (swapTabs s2 a (s.v2l a)).v2l _ _ _ _ _ _ _ _
        rw [hlv]; exact r1
      · show ∀ v, v < s2.n → (swapTabs s2 a (s.v2l a)).v2l v < s2.n ∧
          (swapTabs s2 a (s.v2l a)).l2v ((swapTabs s2 a (s.v2l a)).v2l v) = v
        rw [hlv, en]; exact htab.1
      · show ∀ l, l < s2.n → _ < s2.n ∧ (swapTabs s2 a (s.v2l a)).v2l _ = l
        rw [hlv, en]; exact htab.2
      · show ∀ v w, v < s2.n → w < s2.n → _ ∈ s2.mat
        rw [en, hmt]; exact h.mat
      · exact Nat.le_trans h.size hsz
      · exact Nat.le_trans h.size hsz
    · refine ⟨swapTabs s2 a (s.v2l a), D1, L2, ?_, ⟨?_, ?_, ?_, ?_, ?_, ?_⟩, en, hD, by rw [if_pos (by omega)]; exact hlv⟩
      · show some (if _ then _ else _) = _
        rw [if_neg hr]
      · rw [hlv]; exact hsi
      · show ∀ v, v < s2.n → (swapTabs s2 a (s.v2l a)).v2l v < s2.n ∧ _
        rw [hlv, en]; exact htab.1
      · show ∀ l, l < s2.n → _ < s2.n ∧ (swapTabs s2 a (s.v2l a)).v2l _ = l
        rw [hlv, en]; exact htab.2
      · show ∀ v w, v < s2.n → w < s2.n → _ ∈ s2.mat
        rw [en, hmt]; exact h.mat
      · show sz0 ≤ s2.tsz
        rw [hts]; exact h.tsz
      · exact Nat.le_trans h.size hsz

theorem varUp_spec {sz0 : Nat} (hgr : ∀ s, s < P.grow s) (hpos : ∀ t u v, sz0 ≤ t → Q.pos t u v < Q.cells t)
    (h : RI Q sz0 x D L s) (ha : a < s.n) :
    ∃ s' D' L', varUp P Q s a = some s' ∧ RI Q sz0 x D' L' s' ∧ s'.n = s.n ∧ (∀ i, i < 2 ∨ 0 < x i → D' i = D i) ∧
      s'.v2l = if s.v2l a = 0 then s.v2l else swapO s.v2l (s.l2v (s.v2l a - 1)) a := by
  unfold varUp
  rw [if_neg (by omega)]
  by_cases hz : s.v2l a ≠ 0
  · rw [if_pos hz]
    have hlt := (h.lv a ha).1
    obtain ⟨b1, b2⟩ := h.vl (s.v2l a - 1) (by omega)
    obtain ⟨s', D', L', p1, p2, p3, p4, p5⟩ := varDown_spec hgr hpos h b1
    refine ⟨s', D', L', p1, p2, p3, p4, ?_⟩
    rw [p5, b2, if_pos (by omega), if_neg hz, show s.v2l a - 1 + 1 = s.v2l a by omega, (h.lv a ha).2]
  · rw [if_neg hz]
    exact ⟨s, D, L, rfl, h, rfl, fun _ _ => rfl, by rw [if_pos (by omega)]⟩

theorem moves_spec {sz0 : Nat} (hgr : ∀ s, s < P.grow s) (hpos : ∀ t u v, sz0 ≤ t → Q.pos t u v < Q.cells t) :
    ∀ {ms : List (Bool × Nat)} {D : Nat → Fn} {L : List Nat} {s : RS}, RI Q sz0 x D L s → (∀ m ∈ ms, m.2 < s.n) →
    ∃ s' D' L', moves P Q ms s = some s' ∧ RI Q sz0 x D' L' s' ∧ s'.n = s.n ∧ ∀ i, i < 2 ∨ 0 < x i → D' i = D i
  | [], D, L, s, h, _ => ⟨s, D, L, rfl, h, rfl, fun _ _ => rfl⟩
  | (d, a) :: ms, D, L, s, h, hm => by
    have ha : a < s.n := hm (d, a) (by simp)
    obtain ⟨s1, D1, L1, p1, p2, p3, p4⟩ : ∃ s' D' L', (if d then varDown P Q s a else varUp P Q s a) = some s' ∧
        RI Q sz0 x D' L' s' ∧ s'.n = s.n ∧ ∀ i, i < 2 ∨ 0 < x i → D' i = D i := by
      cases d
      · obtain ⟨s', D', L', p1, p2, p3, p4, _⟩ := varUp_spec hgr hpos h ha
        exact ⟨s', D', L', p1, p2, p3, p4⟩
      · obtain ⟨s', D', L', p1, p2, p3, p4, _⟩ := varDown_spec hgr hpos h ha
        exact ⟨s', D', L', p1, p2, p3, p4⟩
    obtain ⟨s2, D2, L2, q1, q2, q3, q4⟩ := moves_spec hgr hpos (ms := ms) p2 (fun m hmm => by rw [p3]; exact hm m (by simp [hmm]))
    refine ⟨s2, D2, L2, ?_, q2, q3.trans p3, fun i hi => (q4 i hi).trans (p4 i hi)⟩
    unfold moves
    show Option.bind (if d then varDown P Q s a else varUp P Q s a) _ = _
    rw [p1]
    exact q1

/-- moving `a` down to level `l` moves the variables between one level up -/
theorem downTo_spec {sz0 l : Nat} (hgr : ∀ s, s < P.grow s) (hpos : ∀ t u v, sz0 ≤ t → Q.pos t u v < Q.cells t) :
    ∀ {f : Nat} {D : Nat → Fn} {L : List Nat} {s : RS}, RI Q sz0 x D L s → a < s.n → l < s.n → s.v2l a ≤ l → l ≤ s.v2l a + f →
    ∃ s' D' L', downTo P Q a l f s = some s' ∧ RI Q sz0 x D' L' s' ∧ s'.n = s.n ∧ (∀ i, i < 2 ∨ 0 < x i → D' i = D i) ∧
      ∀ w, w < s.n → s'.v2l w = if w = a then l else if s.v2l a < s.v2l w ∧ s.v2l w ≤ l then s.v2l w - 1 else s.v2l w
  | f, D, L, s, h, ha, hl, h1, h2 => by
    by_cases hlt : s.v2l a < l
    · match f with
      | 0 => omega
      | f + 1 =>
        obtain ⟨s1, D1, L1, p1, p2, p3, p4, p5⟩ := varDown_spec hgr hpos h ha
        rw [if_pos (by omega)] at p5
        obtain ⟨b1, b2⟩ := h.vl (s.v2l a + 1) (by omega)
        obtain ⟨b, eb⟩ : ∃ b, s.l2v (s.v2l a + 1) = b := ⟨_, rfl⟩
        rw [eb] at p5 b1 b2
        have hne : a ≠ b := by rintro rfl; omega
        have e1 : s1.v2l a = s.v2l a + 1 := by rw [p5, swapO_a hne, b2]
        obtain ⟨s2, D2, L2, q1, q2, q3, q4, q5⟩ := downTo_spec (l := l) hgr hpos (f := f) p2 (by omega) (by omega) (by omega) (by omega)
        refine ⟨s2, D2, L2, ?_, q2, q3.trans p3, fun i hi => (q4 i hi).trans (p4 i hi), fun w hw => ?_⟩
        · unfold downTo
          rw [if_pos hlt, p1]
          exact q1
        · rw [q5 w (by omega), e1]
          by_cases w1 : w = a
          · rw [if_pos w1, if_pos w1]
          · rw [if_neg w1, if_neg w1]
            by_cases w2 : w = b
            · have : s1.v2l w = s.v2l a := by rw [p5, w2, swapO_b]
              rw [this, w2, b2, if_neg (by omega), if_pos (by omega)]
              omega
            · have e3 : s1.v2l w = s.v2l w := by rw [p5, swapO_ne w1 w2]
              have e4 : s.v2l w ≠ s.v2l a + 1 := fun e => w2 (by rw [← (h.lv w hw).2, e, eb])
              rw [e3]
              by_cases hc : s.v2l a + 1 < s.v2l w ∧ s.v2l w ≤ l
              · rw [if_pos hc, if_pos (by omega)]
              · rw [if_neg hc, if_neg (by omega)]
    · refine ⟨s, D, L, ?_, h, rfl, fun _ _ => rfl, fun w hw => ?_⟩
      · cases f <;> (unfold downTo; rw [if_neg hlt])
      · by_cases w1 : w = a
        · rw [if_pos w1, w1]; omega
        · rw [if_neg w1, if_neg (by omega)]

/-- moving `a` up to level `l` moves the variables between one level down -/
theorem upTo_spec {sz0 l : Nat} (hgr : ∀ s, s < P.grow s) (hpos : ∀ t u v, sz0 ≤ t → Q.pos t u v < Q.cells t) :
    ∀ {f : Nat} {D : Nat → Fn} {L : List Nat} {s : RS}, RI Q sz0 x D L s → a < s.n → l ≤ s.v2l a → s.v2l a ≤ l + f →
    ∃ s' D' L', upTo P Q a l f s = some s' ∧ RI Q sz0 x D' L' s' ∧ s'.n = s.n ∧ (∀ i, i < 2 ∨ 0 < x i → D' i = D i) ∧
      ∀ w, w < s.n → s'.v2l w = if w = a then l else if l ≤ s.v2l w ∧ s.v2l w < s.v2l a then s.v2l w + 1 else s.v2l w
  | f, D, L, s, h, ha, h1, h2 => by
    by_cases hlt : l < s.v2l a
    · match f with
      | 0 => omega
      | f + 1 =>
        obtain ⟨s1, D1, L1, p1, p2, p3, p4, p5⟩ := varUp_spec hgr hpos h ha
        rw [if_neg (by omega)] at p5
        have hla := (h.lv a ha).1
        obtain ⟨b1, b2⟩ := h.vl (s.v2l a - 1) (by omega)
        obtain ⟨b, eb⟩ : ∃ b, s.l2v (s.v2l a - 1) = b := ⟨_, rfl⟩
        rw [eb] at p5 b1 b2
        have hne : b ≠ a := by rintro rfl; omega
        have e1 : s1.v2l a = s.v2l a - 1 := by rw [p5, swapO_b, b2]
        obtain ⟨s2, D2, L2, q1, q2, q3, q4, q5⟩ := upTo_spec (l := l) hgr hpos (f := f) p2 (by omega) (by omega) (by omega)
        refine ⟨s2, D2, L2, ?_, q2, q3.trans p3, fun i hi => (q4 i hi).trans (p4 i hi), fun w hw => ?_⟩
        · unfold upTo
          rw [if_pos hlt, p1]
          exact q1
        · rw [q5 w (by omega), e1]
          by_cases w1 : w = a
          · rw [if_pos w1, if_pos w1]
          · rw [if_neg w1, if_neg w1]
            by_cases w2 : w = b
            · have : s1.v2l w = s.v2l a := by rw [p5, w2, swapO_a hne]
              rw [this, w2, b2, if_neg (by omega), if_pos (by omega)]
              omega
            · have e3 : s1.v2l w = s.v2l w := by rw [p5, swapO_ne w2 w1]
              have e4 : s.v2l w ≠ s.v2l a - 1 := fun e => w2 (by rw [← (h.lv w hw).2, e, eb])
              rw [e3]
              by_cases hc : l ≤ s.v2l w ∧ s.v2l w < s.v2l a - 1
              · rw [if_pos hc, if_pos (by omega)]
              · rw [if_neg hc, if_neg (by omega)]
    · refine ⟨s, D, L, ?_, h, rfl, fun _ _ => rfl, fun w hw => ?_⟩
      · cases f <;> (unfold upTo; rw [if_neg hlt])
      · by_cases w1 : w = a
        · rw [if_pos w1, w1]; omega
        · rw [if_neg w1, if_neg (by omega)]

end Down

end Verif.Bdd
