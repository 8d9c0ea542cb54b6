import Verif.Drup.Inv
/-!
# Propagation of the DRUP check keeps the invariant
-/
namespace Verif.Drup
section
variable {Bs : List (List Int)} {W : Nat → Prop} {L : List Int} {i : Nat}

theorem countP_swapPop {w : List (Nat × Bool)} {p : Nat} {e : Nat × Bool} (h : w[p]? = some e) (d : Nat) :
    (swapPop w p).countP (fun x => x.1 == d) + (if e.1 = d then 1 else 0) = w.countP fun x => x.1 == d := by
  rw [(swapPop_perm h).countP_eq, List.countP_cons]
  by_cases hd : e.1 = d <;> simp [hd]

theorem Inv.watched {s : D} (h : Inv Bs W L i s) {lit : Int} {p : Nat} {e : Nat × Bool} (he : (s.wl lit)[p]? = some e) : W e.1 ∧ 0 < cnt s e.1 lit := by
  have hpos : 0 < cnt s e.1 lit := List.countP_pos_iff.2 ⟨e, List.mem_of_getElem? he, by simp⟩
  refine ⟨Classical.byContradiction fun hW => ?_, hpos⟩
  rw [h.off e.1 hW lit] at hpos
  cases hpos

theorem visitOne_ok {s s' : D} {v : Vis} (h : Inv Bs W L i s) {lit : Int} {p : Nat} {e : Nat × Bool} (hlit : lit ∈ s.stk) (he : (s.wl lit)[p]? = some e)
    (hv : s.visitOne lit p e = some (s', v)) : (v ≠ .conf ∧ Inv Bs W L i s' ∧ Ext W s s') ∨ (v = .conf ∧ Conf Bs W L i s s') := by
  obtain ⟨hW, hpos⟩ := h.watched he
  obtain ⟨b, hb, hbl, hcn⟩ := h.on e.1 hW
  have hlt := h.lt _ hW
  unfold D.visitOne at hv
  rw [hb] at hv
  match b, hbl with
  | x :: y :: zs, _ =>
    dsimp only at hv
    split at hv
    · injection hv with hv; injection hv with h1 h2; subst h1; subst h2
      exact .inl ⟨by decide, h, Ext.refl W s⟩
    · rename_i hxy
      rw [not_or, not_not, not_not, h.fls0, h.fls0] at hxy
      obtain ⟨hh, hhd⟩ : ∃ hh, hh = if x = lit then y else x := ⟨_, rfl⟩
      rw [← hhd] at hv
      have hp2 : [x, y].Perm [hh, lit] := by
        by_cases hx : x = lit
        · rw [if_pos hx] at hhd; subst hhd; subst hx; exact List.Perm.swap _ _ _
        · rw [if_neg hx] at hhd
          have hpos' : 0 < [x, y].count lit := by
            have := hcn lit
            rw [this] at hpos
            exact hpos
          have hy : lit = y := by
            have := List.count_pos_iff.1 hpos'
            rcases List.mem_cons.1 this with e | e
            · exact absurd e.symm hx
            · exact List.mem_singleton.1 e
          rw [hhd, hy]
      have hnr : ∀ l ∈ s.stk, s.reason l.natAbs ≠ e.1 + 1 := by
        intro l hl hr
        rcases h.just.mem hl with ⟨h0, _⟩ | ⟨c', zs', k1, _, k3, _⟩
        · omega
        · have : c' = e.1 := by omega
          rw [this, hb] at k3
          injection k3 with k3
          injection k3 with k3 _
          rw [k3, Int.neg_neg] at hxy
          exact hxy.1 hl
      have hcnt0 : ∀ k, cnt s e.1 k = [hh, lit].count k := fun k => (hcn k).trans (hp2.count_eq k)
      have hnh : -hh ∉ s.stk := by
        rw [hhd]; split
        · exact hxy.2
        · exact hxy.1
      split at hv
      · rename_i z zs' hpick
        obtain ⟨hz0, hzp⟩ := pick_some hpick
        injection hv with hv; injection hv with h1 h2
        have hzl : z ≠ lit := fun e => (h.fls0.1 hz0) (e ▸ hlit)
        have hs' : s'.wl = upd (upd s.wl z (s.wl z ++ [e])) lit (swapPop (s.wl lit) p) := by
          rw [← h1]
          show upd (upd s.wl z (s.wl z ++ [e])) lit (swapPop (upd s.wl z (s.wl z ++ [e]) lit) p) = _
          rw [upd_ne _ _ (Ne.symm hzl)]
        have hcn' : ∀ d k, cnt s' d k + (if e.1 = d ∧ k = lit then 1 else 0) = cnt s d k + (if e.1 = d ∧ k = z then 1 else 0) := by
          intro d k
          unfold cnt
          rw [hs']
          by_cases hk : k = lit
          · subst hk
            rw [upd_self]
            have := countP_swapPop he d
            by_cases hd : e.1 = d
            · simp only [hd, true_and, if_true, Ne.symm hzl, if_false, Nat.add_zero] at this ⊢
              exact this
            · simp only [hd, false_and, if_false, Nat.add_zero] at this ⊢
              exact this
          · rw [upd_ne _ _ hk]
            by_cases hkz : k = z
            · subst hkz
              rw [upd_self, List.countP_append]
              by_cases hd : e.1 = d <;> simp [hd, hk]
            · rw [upd_ne _ _ hkz]; simp [hk, hkz]
        left
        refine ⟨by rw [← h2]; decide, ?_, ?_⟩
        · refine h.setBody (b' := hh :: z :: zs') hW hb ?_ (by simp) hnr (by rw [← h1]; rfl) (by rw [← h1]; rfl) (by rw [← h1]; rfl) (by rw [← h1]; rfl) (by rw [← h1]; rfl) (fun d hd k => ?_) (fun k => ?_)
          · refine (hzp.symm.cons hh).trans ?_
            exact ((hp2.append_right zs).symm : (hh :: lit :: zs).Perm (x :: y :: zs))
          · have := hcn' d k
            rw [if_neg (fun h => hd h.1.symm), if_neg (fun h => hd h.1.symm)] at this
            exact this
          · have := hcn' e.1 k
            rw [hcnt0 k] at this
            simp only [true_and] at this
            show cnt s' e.1 k = [hh, z].count k
            simp only [List.count_cons, List.count_nil, beq_iff_eq] at this ⊢
            by_cases h3 : k = lit
            · subst h3
              have h4 : ¬ z = k := hzl
              have h5 : ¬ k = z := Ne.symm hzl
              simp only [if_true, h4, h5, if_false] at this ⊢
              omega
            · by_cases h4 : k = z
              · subst h4
                simp only [if_true, h3, Ne.symm h3, if_false] at this ⊢
                omega
              · simp only [h3, h4, Ne.symm h3, Ne.symm h4, if_false] at this ⊢
                omega
        · subst h1
          refine ⟨⟨[], rfl, fun _ _ h => by cases h⟩, fun _ _ => rfl, fun _ _ h => .inl h, fun h => h, fun c hc => ?_, rfl, rfl⟩
          have : c ≠ e.1 := fun e => hc (e ▸ hW)
          exact List.getElem?_set_ne (Ne.symm this)
      · rename_i hpick
        have hall := pick_none hpick
        obtain ⟨s1, hs1⟩ : ∃ s1, s1 = { s with cls := s.cls.set e.1 (hh :: lit :: zs) } := ⟨_, rfl⟩
        have hv : (if s1.fls hh = 0 then some ({ s1.assign hh with reason := upd s1.reason hh.natAbs (e.1 + 1) }, Vis.unit) else (s1.analyze e.1).map (·, .conf)) = some (s', v) := by
          rw [hs1]; exact hv
        have f1 : s1.stk = s.stk := by rw [hs1]
        have f2 : s1.fls = s.fls := by rw [hs1]
        have f3 : s1.cls[e.1]? = some (hh :: lit :: zs) := by
          rw [hs1]; exact List.getElem?_set_self (List.getElem?_eq_some_iff.1 hb).1
        have f4 : ∀ d k, cnt s1 d k = cnt s d k := by intro d k; rw [hs1]; rfl
        have I1 : Inv Bs W L i s1 := by
          refine h.setBody (b' := hh :: lit :: zs) hW hb ?_ (by simp) hnr (by rw [hs1]) (by rw [hs1]) f2 f1 (by rw [hs1]) (fun d _ k => f4 d k) (fun k => (f4 _ k).trans (hcnt0 k))
          exact (hp2.append_right zs).symm
        have E1 : Ext W s s1 := by
          rw [hs1]
          refine ⟨⟨[], rfl, fun _ _ h => by cases h⟩, fun _ _ => rfl, fun _ _ h => .inl h, fun h => h, fun c hc => ?_, rfl, rfl⟩
          have : c ≠ e.1 := fun e => hc (e ▸ hW)
          exact List.getElem?_set_ne (Ne.symm this)
        have hrest : ∀ z ∈ lit :: zs, z ∈ s1.stk := by
          intro z hz
          rw [f1]
          rcases List.mem_cons.1 hz with rfl | hz
          · exact hlit
          · exact (h.fls z).1 (hall z hz)
        split at hv
        · rename_i hf
          injection hv with hv; injection hv with h1 h2
          have hn : hh ∉ s1.stk := I1.fls0.1 hf
          have hn2 : -hh ∉ s1.stk := by rw [f1]; exact hnh
          exact .inl ⟨by rw [← h2]; decide, I1.push hlt f3 hrest hn hn2 h1.symm, E1.trans (Ext.push hW hn hn2 h1.symm)⟩
        · rename_i hf
          obtain ⟨s2, h1, h2⟩ := Option.map_eq_some_iff.1 hv
          injection h2 with h2 h3
          subst h2
          refine .inr ⟨h3.symm, ?_⟩
          have C := analyze_ok I1 hlt f3 (by simp) (fun l hl => by
            rcases List.mem_cons.1 hl with rfl | hl
            · exact (I1.fls _).1 hf
            · exact hrest l hl) h1
          refine ⟨C.inv, by rw [C.stk, f1, E1.forced], fun l hl => ?_, fun v c hv => ?_, fun c hc => (C.cls c hc).trans (E1.cls c hc), C.forced.trans E1.forced, C.processed.trans E1.forced, fun c hc => C.mono c (by rw [E1.mkd]; exact hc), fun c hc => ?_, C.rup⟩
          · rw [C.rs l hl, hs1]
          · rcases C.rw v c hv with hv | hv
            · exact E1.rw v c hv
            · exact .inr hv
          · rcases C.new c hc with h1 | ⟨h1, h2⟩
            · rw [E1.mkd] at h1; exact .inl h1
            · exact .inr ⟨h1, fun hb => h2 (E1.blk hb)⟩

/-- the outcome of a propagation -/
def PropOk (Bs : List (List Int)) (W : Nat → Prop) (L : List Int) (i : Nat) (s s' : D) (conf : Prop) : Prop :=
  (¬ conf ∧ Inv Bs W L i s' ∧ Ext W s s') ∨ (conf ∧ Conf Bs W L i s s')

theorem Ext.le {s s' : D} (h : Ext W s s') (hf : s.forced ≤ s.stk.length) : s'.forced ≤ s'.stk.length := by
  obtain ⟨e, h1, _⟩ := h.stk
  rw [h.forced, h1, List.length_append]; omega

theorem Ext.prop {s s1 s' : D} {conf : Prop} (hf : s.forced ≤ s.stk.length) (h : Ext W s s1) (g : PropOk Bs W L i s1 s' conf) : PropOk Bs W L i s s' conf := by
  rcases g with ⟨g1, g2, g3⟩ | ⟨g1, g2⟩
  · exact .inl ⟨g1, g2, h.trans g3⟩
  · exact .inr ⟨g1, h.conf hf g2⟩

theorem visit_ok {check : Bool} {lit : Int} : ∀ {n p : Nat} {s s' : D} {o : Out}, Inv Bs W L i s → lit ∈ s.stk → s.forced ≤ s.stk.length →
    s.visit check lit n p = some (s', o) → PropOk Bs W L i s s' (o = .conf)
  | 0, _, _, _, _, _, _, _, hv => by cases hv
  | n + 1, p, s, s', o, h, hlit, hf, hv => by
    unfold D.visit at hv
    split at hv
    · injection hv with hv; injection hv with h1 h2; subst h1; subst h2
      exact .inl ⟨by simp, h, Ext.refl W s⟩
    · rename_i e he
      split at hv
      · exact visit_ok h hlit hf hv
      · split at hv
        · cases hv
        all_goals
          rename_i s1 hs1
          rcases visitOne_ok h hlit he hs1 with ⟨g1, g2, g3⟩ | ⟨g1, g2⟩
        · exact g3.prop hf (visit_ok g2 (g3.mem hlit) (g3.le hf) hv)
        · cases g1
        · exact g3.prop hf (visit_ok g2 (g3.mem hlit) (g3.le hf) hv)
        · cases g1
        · split at hv
          · injection hv with hv; injection hv with h1 h2; subst h1; subst h2
            exact .inl ⟨by simp, g2, g3⟩
          · exact g3.prop hf (visit_ok g2 (g3.mem hlit) (g3.le hf) hv)
        · cases g1
        · exact absurd rfl g1
        · injection hv with hv; injection hv with h1 h2; subst h1; subst h2
          exact .inr ⟨rfl, g2⟩

theorem Inv.processed {s : D} (h : Inv Bs W L i s) (k : Nat) : Inv Bs W L i { s with processed := k } :=
  ⟨h.len, h.mlen, h.ile, h.nz, h.perm, h.on, h.off, h.lt, h.fls, h.just⟩

theorem prop_ok : ∀ {n : Nat} {check : Bool} {a0 a1 : Nat} {l0 : Int} {w0 : Nat} {s s' : D} {r : Bool}, Inv Bs W L i s → s.forced ≤ s.stk.length →
    s.prop n check a0 a1 l0 w0 = some (s', r) → PropOk Bs W L i s s' (r = true) ∧ (r = false → s'.processed = s'.stk.length)
  | 0, _, _, _, _, _, _, _, _, _, _, h => by cases h
  | n + 1, check, a0, a1, l0, w0, s, s', r, hi, hf, h => by
    unfold D.prop at h
    split at h
    · split at h
      · exact prop_ok hi hf h
      · injection h with h; injection h with h1 h2; subst h1; subst h2
        refine ⟨.inl ⟨by simp, hi.processed _, ?_⟩, fun _ => rfl⟩
        exact ⟨⟨[], rfl, fun _ _ h => by cases h⟩, fun _ _ => rfl, fun _ _ h => .inl h, fun h => h, fun _ _ => rfl, rfl, rfl⟩
    · rename_i lit hlit
      have hm : lit ∈ s.stk := List.mem_reverse.1 (List.mem_of_getElem? hlit)
      split at h
      · cases h
      all_goals rename_i s1 hv
      · injection h with h; injection h with h1 h2; subst h1; subst h2
        rcases visit_ok hi hm hf hv with ⟨g1, _⟩ | ⟨_, g⟩
        · exact absurd rfl g1
        · exact ⟨.inr ⟨rfl, g⟩, fun h => by cases h⟩
      · rcases visit_ok hi hm hf hv with ⟨_, g2, g3⟩ | ⟨g1, _⟩
        · obtain ⟨k1, k2⟩ := prop_ok g2 (g3.le hf) h
          exact ⟨g3.prop hf k1, k2⟩
        · cases g1
      · rcases visit_ok hi hm hf hv with ⟨_, g2, g3⟩ | ⟨g1, _⟩
        · obtain ⟨k1, k2⟩ := prop_ok g2 (g3.le hf) h
          exact ⟨g3.prop hf k1, k2⟩
        · cases g1

end

end Verif.Drup
