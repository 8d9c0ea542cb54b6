import Verif.MaxSat.Msu3

/-! # The totalizer with a growing set of literals and a growing bound -/

namespace Verif.MaxAlg

open Verif.MaxSat (litVal clauseVal costC)

/-- the totalizer between two calls, on a solver that started with the clauses `s0`: it counts the literals `L`, `as` are the assumptions for the bound `lb` -/
structure TotI (s0 s : Sol) (t : Tot) (L : List Nat) (lb : Nat) (as : List Nat) : Prop where
  inc : t.inc = true
  ext : Ext s0 s
  start : t.has = false → t.zs = [] ∧ t.join = false ∧ s = s0
  join : t.has = true → t.join = true
  built : t.has = true → Counts t s L
  fresh : t.has = true → ∀ l ∈ t.out, s0.n ≤ l / 2
  bound : t.has = true → ∀ z ∈ t.zs, z.rhs = lb
  len : t.has = false → L.length ≤ lb
  canon : ∀ v, s0.Holds v → ∃ v' : Nat → Bool, (∀ x < s0.n, v' x = v x) ∧ s.Holds v' ∧ (t.has = true → Canon v' t L)
  asm : as = if t.has then (t.out.drop lb).map neg else []

theorem TotI.fresh0 {s0 : Sol} {t : Tot} (h1 : t.inc = true) (h2 : t.has = false) (h3 : t.zs = []) (h4 : t.join = false) : TotI s0 s0 t [] 0 [] :=
  ⟨h1, Ext.refl _, fun _ => ⟨h3, h4, rfl⟩, fun e => (by rw [h2] at e; cases e), fun e => (by rw [h2] at e; cases e), fun e => (by rw [h2] at e; cases e), fun e => (by rw [h2] at e; cases e),
    fun _ => Nat.le_refl 0, fun v hv => ⟨v, fun _ _ => rfl, hv, fun e => (by rw [h2] at e; cases e)⟩, by rw [h2]; rfl⟩

theorem TotI.wf {s0 s : Sol} {t : Tot} {L : List Nat} {lb : Nat} {as : List Nat} (h : TotI s0 s t L lb as) (hw : s0.WF) : s.WF := by
  cases e : t.has with
  | false => rw [(h.start e).2.2]; exact hw
  | true => exact (h.built e).pre.swf

theorem TotI.sound {s0 s : Sol} {t : Tot} {L : List Nat} {lb : Nat} {as : List Nat} (h : TotI s0 s t L lb as) {u : Nat → Bool} (hu : s.Holds u) (ha : ∀ a ∈ as, litVal u a = true) : cnt u L ≤ lb := by
  by_cases hh : t.has = true
  · refine asm_le (h.built hh) (h.bound hh) hu fun a ha' => ha a ?_
    rw [h.asm, if_pos hh]; exact ha'
  · exact Nat.le_trans (cnt_le _ _) (h.len (by simpa using hh))

theorem TotI.complete {s0 s : Sol} {t : Tot} {L : List Nat} {lb : Nat} {as : List Nat} (h : TotI s0 s t L lb as) (hL : Below s0.n L) {v : Nat → Bool} (hv : s0.Holds v) (hc : cnt v L ≤ lb) :
    ∃ v' : Nat → Bool, (∀ x < s0.n, v' x = v x) ∧ s.Holds v' ∧ ∀ a ∈ as, litVal v' a = true := by
  obtain ⟨v', g1, g2, g3⟩ := h.canon v hv
  refine ⟨v', g1, g2, fun a ha => ?_⟩
  rw [h.asm] at ha
  by_cases hh : t.has = true
  · rw [if_pos hh] at ha
    exact le_asm (g3 hh) (rhs := lb) (by rw [cnt_congr fun l hl => g1 _ (hL l hl)]; exact hc) a ha
  · rw [if_neg hh] at ha; cases ha

theorem TotI.asm_lt {s0 s : Sol} {t : Tot} {L : List Nat} {lb : Nat} {as : List Nat} (h : TotI s0 s t L lb as) : ∀ a ∈ as, s0.n ≤ a / 2 ∧ a / 2 < s.n := by
  intro a ha
  rw [h.asm] at ha
  by_cases hh : t.has = true
  · rw [if_pos hh] at ha
    obtain ⟨l, hl, rfl⟩ := List.mem_map.1 ha
    have hl := List.mem_of_mem_drop hl
    rw [neg_div]
    exact ⟨h.fresh hh l hl, (h.built hh).out l hl⟩
  · rw [if_neg hh] at ha; cases ha

/-- more literals and the next bound (alg_msu3.go:170-183, alg_wmsu3.go:328-339) -/
theorem TotI.next {s0 s : Sol} (hw : s0.WF) {t : Tot} {L J L' : List Nat} {lb : Nat} {as : List Nat} (h : TotI s0 s t L lb as) (hp : (L ++ J).Perm L') (hb : Below s0.n L') (hl : lb + 1 ≤ L'.length) :
    ∃ t' s' as', (if t.has = false then
        if lb + 1 ≠ L'.length then ((t.build s L' (lb + 1)).1.incUpdate (t.build s L' (lb + 1)).2 [] (lb + 1)).map fun e => (false, e) else some (true, t, s, as)
      else (t.incUpdate s J (lb + 1)).map fun e => (false, e)) = some (!t'.has, t', s', as') ∧ TotI s0 s' t' L' (lb + 1) as' := by
  by_cases hh : t.has = true
  · rw [if_neg (by rw [hh]; simp)]
    have J' : ∃ t1 s1, (if J = [] then (t, s) else t.joinLits s J (lb + 1)) = (t1, s1) ∧ Ext s s1 ∧ Counts t1 s1 L' ∧ t1.inc = true ∧ t1.join = true ∧ t1.has = true ∧
        (∀ l ∈ t1.out, s0.n ≤ l / 2) ∧
        ∀ u : Nat → Bool, s.Holds u → Canon u t L → ∃ u' : Nat → Bool, (∀ x < s.n, u' x = u x) ∧ s1.Holds u' ∧ Canon u' t1 L' := by
      by_cases he : J = []
      · rw [if_pos he]
        rw [he, List.append_nil] at hp
        exact ⟨t, s, rfl, Ext.refl _, (h.built hh).perm hp, h.inc, h.join hh, hh, h.fresh hh, fun u hu hcu => ⟨u, fun _ _ => rfl, hu, hcu.perm hp⟩⟩
      · rw [if_neg he]
        have hb : Below s.n J := fun l hl => Nat.lt_of_lt_of_le (hb l (hp.mem_iff.1 (List.mem_append_right _ hl))) h.ext.n
        obtain ⟨t1, s1, e1, e2, e3, e4, e5, e6, e7⟩ := join_spec (rhs := lb + 1) h.inc (h.join hh) (h.built hh) hb he (Nat.succ_ne_zero lb)
        refine ⟨t1, s1, e1, e2, e3.perm hp, e4, e5, e6 hh, fun l hl => ?_, fun u hu hcu => ?_⟩
        · have : l ∈ (t.joinLits s J (lb + 1)).1.out := by rw [e1]; exact hl
          exact Nat.le_trans h.ext.n (joinLits_out l this)
        · obtain ⟨u', g1, g2, g3⟩ := e7 u hu hcu
          exact ⟨u', g1, g2, g3.perm hp⟩
    obtain ⟨t1, s1, j1, j2, j3, j4, j5, j6, j7, j8⟩ := J'
    obtain ⟨t', s', e1, e2, e3, e4, e5, e6, e7, e8, _, e9, e10⟩ := update_inc_spec (rhs := lb + 1) j4 j3 hl
    have hr : t.incUpdate s J (lb + 1) = some (t', s', (t1.out.drop (lb + 1)).map neg) := by
      unfold Tot.incUpdate
      split
      · rename_i hl0
        rw [if_pos hl0] at j1
        injection j1 with a b
        subst a b
        exact e1
      · rename_i hl0
        rw [if_neg hl0] at j1
        rw [j1]; exact e1
    have hh' : t'.has = true := e7.trans j6
    refine ⟨_, _, _, by rw [hr, hh']; rfl, e5, h.ext.trans (j2.trans e2), fun e => (by rw [hh'] at e; cases e), fun _ => e6.trans j5, fun _ => e4, fun _ => by rw [e8]; exact j7, fun _ => e9,
      fun e => (by rw [hh'] at e; cases e), fun v hv => ?_, by rw [if_pos hh', e8]⟩
    obtain ⟨v1, g1, g2, g3⟩ := h.canon v hv
    obtain ⟨v2, f1, f2, f3⟩ := j8 v1 g2 (g3 hh)
    obtain ⟨k1, k2⟩ := e10 v2 f2 f3
    exact ⟨v2, fun x hx => by rw [f1 x (Nat.lt_of_lt_of_le hx h.ext.n), g1 x hx], k1, fun _ => k2⟩
  · have hf : t.has = false := by simpa using hh
    rw [if_pos hf]
    obtain ⟨hz, hj, hs⟩ := h.start hf
    by_cases hne : lb + 1 ≠ L'.length
    · rw [if_pos hne]
      have ho : t.old = [] := by unfold Tot.old; rw [hz]; simp
      obtain ⟨b1, b2, b3, _, b4, b5, b6, b7, b8⟩ := build_spec (t := t) (s := s) (lits := L') (rhs := lb + 1) (by omega) (fun e => by rw [h.inc] at e; exact nomatch e.1) (fun e => hne e.1)
        (by rw [ho, hs]; exact ⟨hw, fun z hz => (nomatch hz), fun z hz => (nomatch hz)⟩) (by rw [hs]; exact hb)
      have bo := build_out (t := t) (s := s) (lits := L') (rhs := lb + 1)
      obtain ⟨b, hb⟩ : ∃ b, t.build s L' (lb + 1) = b := ⟨_, rfl⟩
      rw [hb] at b1 b2 b3 b4 b5 b6 b7 b8 bo ⊢
      obtain ⟨t', s', e1, e2, e3, e4, e5, e6, e7, e8, _, e9, e10⟩ := update_inc_spec (rhs := lb + 1) (b3.trans h.inc) b5 hl
      have hh' : t'.has = true := e7.trans b1
      refine ⟨t', s', _, by unfold Tot.incUpdate; rw [if_pos rfl, e1, hh']; rfl, e5, h.ext.trans (b4.trans e2), fun e => (by rw [hh'] at e; cases e), fun _ => e6.trans b2, fun _ => e4,
        fun _ => by rw [e8]; exact fun l hl => Nat.le_trans h.ext.n (bo l hl), fun _ => e9, fun e => (by rw [hh'] at e; cases e), fun v hv => ?_, by rw [if_pos hh', e8]⟩
      obtain ⟨v1, g1, g2, _⟩ := h.canon v hv
      obtain ⟨v2, f1, f2, f3⟩ := b8 v1 g2 (by rw [ho]; exact fun z hz => nomatch hz)
      obtain ⟨k1, k2⟩ := e10 v2 f2 f3
      exact ⟨v2, fun x hx => by rw [f1 x (Nat.lt_of_lt_of_le hx h.ext.n), g1 x hx], k1, fun _ => k2⟩
    · rw [if_neg hne]
      refine ⟨t, s, as, by rw [hf]; rfl, h.inc, h.ext, fun _ => ⟨hz, hj, hs⟩, fun e => absurd e hh, fun e => absurd e hh, fun e => absurd e hh, fun e => absurd e hh, fun _ => by omega, fun v hv => ?_, ?_⟩
      · obtain ⟨v1, g1, g2, _⟩ := h.canon v hv
        exact ⟨v1, g1, g2, fun e => absurd e hh⟩
      · have := h.asm
        rw [if_neg hh] at this ⊢
        exact this

end Verif.MaxAlg
