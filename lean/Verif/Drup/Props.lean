import Verif.Drup.Run
/-!
# The core of the DRUP check is unsatisfiable (C19)
-/
namespace Verif.Drup
section
variable {Bs : List (List Int)} {W : Nat → Prop} {L : List Int} {i : Nat}

/-! ## lemmas -/

theorem filter_len {p : Int → Bool} {a b : List Int} (h : a.Perm b) : (a.filter p).length = (b.filter p).length := (h.filter p).length_eq

/-- after the watches of lemma `i` are removed -/
theorem Inv.removeLemma {s s' : D} (h : Inv Bs (fun d => W d ∨ (d = i ∧ 2 ≤ (Bs.getD i []).length)) L (i + 1) s) (hW : ¬ W i) (hr : s.removeWatches i = some s') :
    Inv Bs W L (i + 1) s' ∧ ∃ w, s' = { s with wl := w } := by
  have hlt : i < s.cls.length := by rw [h.len]; exact h.ile
  have hb := List.getElem?_eq_getElem hlt
  obtain ⟨b0, k1, k2⟩ := h.perm i _ hb
  have hg : Bs.getD i [] = b0 := by rw [List.getD_eq_getElem?_getD, k1]; rfl
  obtain ⟨w, e, _, hs⟩ := removeWatches_eq hb hr
  refine ⟨?_, w, e⟩
  by_cases hl : 2 ≤ s.cls[i].length
  · refine (h.remove hb hl hr).2.congrW fun d => ?_
    by_cases hd : d = i
    · subst hd; simp [hW]
    · simp [hd]
  · rw [hs hl]
    refine h.congrW fun d => ?_
    rw [hg, ← k2.length_eq]
    by_cases hd : d = i
    · subst hd; simp [hW]; omega
    · simp [hd]

theorem add_ok {fuel : Nat} {s s1 : D} {f : Fwd} (G : Good Bs W i s) (h : s.fwdAdd fuel i = some (s1, f)) :
    ∃ W1, i < Bs.length ∧
      ((∀ s2 s4 : D, ∀ fl fl' : Bool, f = .sat → Back Bs W1 (i + 1) (i + 1) s1 s2 → s2.bwdAdd fuel i true fl = some (s4, fl') → Back Bs W i i s s4) ∧
       (∀ s2 s4 : D, ∀ fl fl' : Bool, f = .more → Back Bs W1 (i + 1) (i + 1) s1 s2 → s2.bwdAdd fuel i false fl = some (s4, fl') → Back Bs W i i s s4) ∧
       (∀ s4 : D, ∀ fl' : Bool, f = .unsat → D.bwdAdd fuel i false false { s1 with forced := s1.processed } = some (s4, fl') → Back Bs W i i s s4) ∧
       (f ≠ .unsat → Good Bs W1 (i + 1) s1)) := by
  unfold D.fwdAdd at h
  cases hb : s.cls[i]? with
  | none => rw [hb] at h; cases h
  | some body =>
    rw [hb] at h
    dsimp only at h
    obtain ⟨b0, hb0, hp0⟩ := G.inv.perm i body hb
    have hiB : i < Bs.length := (List.getElem?_eq_some_iff.1 hb0).1
    have hg0 : Bs.getD i [] = b0 := by rw [List.getD_eq_getElem?_getD, hb0]; rfl
    have hWi : ¬ W i := fun hW => absurd (G.inv.lt i hW) (by omega)
    obtain ⟨q1, q2, q3, q4⟩ := scan_ok s.fls body.length body [] false 0 (by simp) (by simp) (by simp)
    obtain ⟨r, hr⟩ : ∃ r, r = scan s.fls body.length body [] false 0 := ⟨_, rfl⟩
    rw [← hr] at h q1 q2 q3 q4
    rw [List.drop_zero, List.nil_append] at q2
    rw [List.drop_zero, Bool.false_or] at q3
    obtain ⟨sa, hsa⟩ : ∃ sa : D, sa = { s with cls := s.cls.set i r.1 } := ⟨_, rfl⟩
    have hblt : i < s.cls.length := (List.getElem?_eq_some_iff.1 hb).1
    have ca : sa.cls[i]? = some r.1 := by rw [hsa]; exact List.getElem?_set_self hblt
    have ca2 : ∀ d : Nat, d ≠ i → sa.cls[d]? = s.cls[d]? := by intro d hd; rw [hsa]; exact List.getElem?_set_ne (Ne.symm hd)
    have Ia : Inv Bs W [] (i + 1) sa := by
      have I0 : Inv Bs W [] i sa := by rw [hsa]; exact G.inv.setFree (Nat.le_refl _) hb q1
      refine I0.bound hiB (fun c hc => Nat.lt_succ_of_lt (I0.lt c hc)) fun l hl c hc => ?_
      rcases I0.just.mem hl with ⟨_, h1⟩ | ⟨c', zs', k1, k2, _⟩
      · cases h1
      · omega
    rw [← hsa] at h
    split at h
    · cases h
    · rename_i sb hsb
      obtain ⟨W1, hW1⟩ : ∃ W1 : Nat → Prop, W1 = fun d => W d ∨ (d = i ∧ 2 ≤ (Bs.getD i []).length) := ⟨_, rfl⟩
      obtain ⟨w, eb, _, hsh⟩ := addWatches_eq ca hsb
      have hlen : r.1.length = (Bs.getD i []).length := by rw [hg0, q1.length_eq, hp0.length_eq]
      have Ib : Inv Bs W1 [] (i + 1) sb := by
        rw [hW1]
        by_cases hl : 2 ≤ r.1.length
        · refine (Ia.add hWi (by omega) ca hl hsb).congrW fun d => ?_
          rw [← hlen]; simp [hl]
        · rw [hsh hl]
          refine Ia.congrW fun d => ?_
          rw [← hlen]; simp [hl]
      have b1 : sb.stk = s.stk := by rw [eb, hsa]
      have b2 : sb.reason = s.reason := by rw [eb, hsa]
      have b3 : sb.mkd = s.mkd := by rw [eb, hsa]
      have b4 : ∀ d : Nat, d ≠ i → sb.cls[d]? = s.cls[d]? := by intro d hd; rw [eb]; exact ca2 d hd
      have b5 : sb.processed = s.processed := by rw [eb, hsa]
      have b6 : sb.cls[i]? = some r.1 := by rw [eb]; exact ca
      have Gb : Good Bs W1 (i + 1) sb := ⟨Ib, by rw [b5, b1]; exact G.processed, by rw [b1, b2]; exact G.fresh, fun c hc => by rw [b3]; exact G.unmarked c (by omega)⟩
      have hb2 : ∀ d, d < i → ¬ W d → ¬ W1 d := by
        intro d hd hWd; rw [hW1]; rintro (h | ⟨h, _⟩)
        · exact hWd h
        · omega
      have sblk : ∀ c, Blk Bs s c → Blk Bs sb c := by
        rintro c ⟨b, t, k1, k2, k3, k4, k5⟩
        exact ⟨b, t, k1, k2, by rw [b1]; exact k3, by rw [b2]; exact k4, by rw [b2]; exact k5⟩
      have hsne : ∀ l ∈ s.stk, ∃ c, s.reason l.natAbs = c + 1 ∧ c < i := by
        intro l hl
        rcases G.inv.just.mem hl with ⟨_, h1⟩ | ⟨c', zs', k1, k2, _⟩
        · cases h1
        · exact ⟨c', k1, k2⟩
      have toBack : ∀ {s2 s2r : D}, Back Bs W1 (i + 1) (i + 1) sb s2 → s2.removeWatches i = some s2r → Back Bs W i (i + 1) s s2r ∧ s2r.mkd = s2.mkd ∧ s2r.fls = s2.fls ∧ s2r.cls = s2.cls := by
        intro s2 s2r B hrm
        have BI := B.inv
        rw [hW1] at BI
        obtain ⟨I, w2, e2⟩ := BI.removeLemma hWi hrm
        have f1 : s2r.stk = s2.stk := by rw [e2]
        have f2 : s2r.reason = s2.reason := by rw [e2]
        have f3 : s2r.mkd = s2.mkd := by rw [e2]
        have f4 : s2r.cls = s2.cls := by rw [e2]
        refine ⟨⟨?_, by rw [f1, B.stk, b1], by rw [e2]; exact B.forced.trans (by rw [b1]), by rw [e2]; exact B.processed.trans (by rw [b1]), fun l hl => by rw [f2, B.rs l (b1 ▸ hl), b2], fun v c hc hWc hbc hv => ?_, fun c hc hWc => ?_, fun c hc => ?_, ?_, ?_⟩,
          f3, by rw [e2], f4⟩
        · refine I.bound (Nat.le_of_lt hiB) (fun c hc => G.inv.lt c hc) fun l hl c hc => ?_
          rw [f1, B.stk, b1] at hl
          obtain ⟨c', k1, k2⟩ := hsne l hl
          rw [f2, B.rs l (b1 ▸ hl), b2] at hc
          omega
        · rw [f2] at hv
          rw [← b2]
          exact B.rw v c (by omega) (hb2 c hc hWc) hbc hv
        · rw [f4, B.cls c (by omega) (hb2 c hc hWc), b4 c (by omega)]
        · rw [f3] at hc
          rcases B.new c hc with h1 | h1
          · rw [b3] at h1; exact .inl h1
          · exact .inr fun hb => h1 (sblk c hb)
        · rw [f3]; exact B.sup
        · rw [f3]; exact B.fin
      have hmarkD : ∀ {m : List Bool} {k : Nat}, m.getD k false = false → m[k]? ≠ some true := by
        intro m k hm h1
        rw [List.getD_eq_getElem?_getD, h1] at hm
        cases hm
      have hcl2 : ∀ {W2 : Nat → Prop} {L2 : List Int} {j : Nat} {s2 : D}, Inv Bs W2 L2 j s2 → ∃ b2, s2.cls[i]? = some b2 ∧ b2.Perm body := by
        intro W2 L2 j s2 I
        have hlt : i < s2.cls.length := by rw [I.len]; exact hiB
        obtain ⟨b0', k1, k2⟩ := I.perm i _ (List.getElem?_eq_getElem hlt)
        rw [hb0] at k1; injection k1 with k1; subst k1
        exact ⟨_, List.getElem?_eq_getElem hlt, k2.trans hp0.symm⟩
      cases hflag : r.2.2 with
      | true =>
        rw [hflag, if_pos rfl] at h
        injection h with h; injection h with h1 h2
        subst h1; subst h2
        refine ⟨W1, hiB, fun s2 s4 fl fl' _ B hd => ?_, fun _ _ _ _ h => by (cases h), fun _ _ h => by (cases h), fun _ => Gb⟩
        unfold D.bwdAdd at hd
        obtain ⟨b2', k1, _⟩ := hcl2 B.inv
        rw [k1] at hd
        dsimp only at hd
        split at hd
        · cases hd
        · rename_i s2r hrm
          rw [if_pos rfl] at hd
          injection hd with hd; injection hd with hd _
          subst hd
          obtain ⟨B', f3, _⟩ := toBack B hrm
          refine rup_ok (fuel := 0) (marked := false) (buf := []) B' hb0 (fun h => by cases h) (fun _ h1 => ?_) rfl
          rcases B'.new i h1 with h2 | h2
          · exact G.unmarked i (Nat.le_refl _) h2
          · rw [q3] at hflag
            obtain ⟨t, ht, htf⟩ := List.any_eq_true.1 hflag
            have ht2 : -t ∈ s.stk := (G.inv.fls _).1 (by simpa using htf)
            obtain ⟨c', k1, k2⟩ := hsne _ ht2
            rw [Int.natAbs_neg] at k1
            exact h2 ⟨b0, t, hb0, hp0.mem_iff.1 ht, ht2, by omega, by omega⟩
      | false =>
        rw [hflag, if_neg (by decide)] at h
        have hneg : ∀ l ∈ body, -l ∉ s.stk := by
          intro l hl hm
          have hany : (body.any fun l => s.fls (-l) != 0) = false := by rw [← q3]; exact hflag
          rw [List.any_eq_false] at hany
          exact hany l hl (by simpa using (G.inv.fls _).2 hm)
        -- the lemma on the stack of the forward pass
        have fromBack : ∀ {s2 s4 : D} {fl fl' : Bool}, (fl = true → 2 ≤ r.2.1.length) → Back Bs W1 (i + 1) (i + 1) sb s2 → s2.bwdAdd fuel i false fl = some (s4, fl') → Back Bs W i i s s4 := by
          intro s2 s4 fl fl' hfl B hd
          unfold D.bwdAdd at hd
          obtain ⟨b2', k1, k2⟩ := hcl2 B.inv
          rw [k1] at hd
          dsimp only at hd
          split at hd
          · cases hd
          · rename_i s2r hrm
            rw [if_neg (by decide)] at hd
            obtain ⟨B', f3, f5, _⟩ := toBack B hrm
            have hff : ∀ l, s2r.fls l = 0 ↔ s.fls l = 0 := by
              intro l; rw [B'.inv.fls0, G.inv.fls0, B'.stk]
            obtain ⟨buf, hbuf⟩ : ∃ buf, buf = b2'.filter fun l => s2r.fls l == 0 := ⟨_, rfl⟩
            have hbl : buf.length = r.2.1.length := by
              rw [hbuf, q2, filter_len k2]
              congr 1
              refine List.filter_congr fun l _ => ?_
              have := hff l
              by_cases h0 : s.fls l = 0
              · simp [h0, this.2 h0]
              · simp [h0, mt this.1 h0]
            have hfl2 : (b2'.any fun l => s2r.fls (-l) != 0) = false := by
              rw [List.any_eq_false]
              intro l hl
              have := hneg l (k2.mem_iff.1 hl)
              rw [← G.inv.fls0, ← hff] at this
              simp [this]
            rw [← hbuf, hfl2, Bool.or_false] at hd
            have hno : s2r.unwindIf fl buf = some s2r := by
              cases fl with
              | false => rfl
              | true =>
                have := hfl rfl
                match buf, hbl with
                | [], _ => rfl
                | [u], hbl => simp at hbl; omega
                | _ :: _ :: _, _ => rfl
            rw [hno] at hd
            obtain ⟨s5, h5, h6⟩ := Option.map_eq_some_iff.1 hd
            injection h6 with h6 _
            subst h6
            refine rup_ok B' hb0 (fun _ b hb => ?_) (fun hm => ?_) h5
            · rw [hbuf, List.mem_filter] at hb
              refine ⟨hp0.mem_iff.1 (k2.mem_iff.1 hb.1), ?_, hneg b (k2.mem_iff.1 hb.1)⟩
              rw [← G.inv.fls0, ← hff]; simpa using hb.2
            · rw [f3]; exact hmarkD hm
        split at h
        · cases h
        · rename_i u hu
          have hub : u ∈ body ∧ s.fls u = 0 := by
            have : u ∈ body.filter fun l => s.fls l == 0 := by rw [← q2, hu]; exact List.mem_singleton.2 rfl
            rw [List.mem_filter] at this
            exact ⟨this.1, by simpa using this.2⟩
          have hus : u ∉ s.stk := G.inv.fls0.1 hub.2
          have hus2 : -u ∉ s.stk := hneg u hub.1
          obtain ⟨zs, hzs⟩ : ∃ zs, r.1 = u :: zs := by
            have h4 := q4 (by rw [hu]; simp)
            rw [hu, List.head?_cons] at h4
            cases hr1 : r.1 with
            | nil => rw [hr1] at h4; cases h4
            | cons x xs => rw [hr1] at h4; injection h4 with h4; exact ⟨xs, by rw [h4]⟩
          have hfz : ∀ z ∈ zs, s.fls z ≠ 0 := by
            have hl1 : (r.1.filter fun l => s.fls l == 0).length = 1 := by
              rw [filter_len q1, ← q2, hu]; rfl
            rw [hzs, List.filter_cons_of_pos (by simpa using hub.2), List.length_cons] at hl1
            have hnil : (zs.filter fun l => s.fls l == 0) = [] := List.length_eq_zero_iff.1 (by omega)
            intro z hz h0
            have : z ∈ zs.filter fun l => s.fls l == 0 := List.mem_filter.2 ⟨hz, by simpa using h0⟩
            rw [hnil] at this; cases this
          obtain ⟨su, hsu⟩ : ∃ su : D, su = { sb.assign u with reason := upd sb.reason u.natAbs (i + 1) } := ⟨_, rfl⟩
          have hw1 : u ∉ sb.stk := by rw [b1]; exact hus
          have hw2 : -u ∉ sb.stk := by rw [b1]; exact hus2
          have Iu : Inv Bs W1 [] (i + 1) su := Ib.push (by omega) (hzs ▸ b6) (fun z hz => by rw [b1]; exact (G.inv.fls z).1 (hfz z hz)) hw1 hw2 hsu
          have Eu : Ext (fun _ => True) sb su := Ext.push trivial hw1 hw2 hsu
          obtain ⟨sv, hsv⟩ : ∃ sv : D, sv = { su with forced := sb.processed } := ⟨_, rfl⟩
          have Iv : Inv Bs W1 [] (i + 1) sv := by
            rw [hsv]; exact ⟨Iu.len, Iu.mlen, Iu.ile, Iu.nz, Iu.perm, Iu.on, Iu.off, Iu.lt, Iu.fls, Iu.just⟩
          have v1 : sv.stk = -u :: s.stk := by rw [hsv, hsu]; show -u :: sb.stk = _; rw [b1]
          have v2 : sv.reason = upd s.reason u.natAbs (i + 1) := by rw [hsv, hsu]; show upd sb.reason _ _ = _; rw [b2]
          have v3 : sv.mkd = s.mkd := by rw [hsv, hsu]; exact b3
          have v4 : sv.forced = s.stk.length := by rw [hsv]; show sb.processed = _; rw [b5, G.processed]
          have v5 : sv.cls = sb.cls := by rw [hsv, hsu]; rfl
          have vrs : ∀ l ∈ s.stk, sv.reason l.natAbs = s.reason l.natAbs := by
            intro l hl; rw [v2]
            exact upd_ne _ _ (natAbs_ne (fun e => hus (e ▸ hl)) (fun e => hus2 (e ▸ hl)))
          have vrw : ∀ v c, (¬ W1 c) → (∀ b, Bs[c]? = some b → 2 ≤ b.length) → sv.reason v = c + 1 → s.reason v = c + 1 := by
            intro v c hWc hbc hv
            rw [v2] at hv
            by_cases he : v = u.natAbs
            · subst he; rw [upd_self] at hv
              have : i = c := by omega
              subst this
              exact absurd (by rw [hW1]; exact .inr ⟨rfl, by rw [hg0]; exact hbc b0 hb0⟩) hWc
            · rw [upd_ne _ _ he] at hv; exact hv
          have vblk : ∀ c, Blk Bs s c → Blk Bs sv c := by
            rintro c ⟨b, t, k1, k2, k3, k4, k5⟩
            have := vrs _ k3
            rw [Int.natAbs_neg] at this
            exact ⟨b, t, k1, k2, by rw [v1]; exact List.mem_cons_of_mem _ k3, by rw [this]; exact k4, by rw [this]; exact k5⟩
          have h : (match sv.propagate fuel with
              | none => none
              | some (s, true) => some (s, Fwd.unsat)
              | some (s, false) => some (s, Fwd.more)) = some (s1, f) := by rw [hsv, hsu]; exact h
          have hle : sv.forced ≤ sv.stk.length := by rw [v4, v1, List.length_cons]; omega
          split at h
          · cases h
          · rename_i sc hpr
            injection h with h; injection h with h1 h2
            subst h1; subst h2
            rcases (prop_ok Iv hle hpr).1 with ⟨g, _⟩ | ⟨_, C⟩
            · exact absurd rfl g
            · refine ⟨W1, hiB, fun _ _ _ _ h => by (cases h), fun _ _ _ _ h => by (cases h), fun s4 fl' _ hd => ?_, fun h => absurd rfl h⟩
              have hstk : sc.stk = s.stk := by
                rw [C.stk, v4, v1]
                have : kept s.stk.length (-u :: s.stk) = kept s.stk.length s.stk := kept_cons_ge (by omega)
                rw [this]; unfold kept; simp
              refine fromBack (fl := false) (fun h => by cases h) ?_ hd
              have CI := C.inv
              refine ⟨⟨CI.len, CI.mlen, CI.ile, CI.nz, CI.perm, CI.on, CI.off, CI.lt, CI.fls, CI.just⟩, ?_, ?_, ?_, fun l hl => ?_, fun v c hc hWc hbc hv => ?_, fun c hc hWc => ?_, fun c hc => ?_, fun j hj hm => ?_, fun v hv => ?_⟩
              · show sc.stk = _; rw [hstk, b1]
              · show sc.processed = _; rw [C.processed, v4, b1]
              · show sc.processed = _; rw [C.processed, v4, b1]
              · show sc.reason _ = _
                rw [b1] at hl
                rw [C.rs l (hstk ▸ hl), vrs l hl, b2]
              · rw [b2]
                rcases C.rw v c hv with h1 | h1
                · exact vrw v c hWc hbc h1
                · exact absurd h1 hWc
              · show sc.cls[c]? = _
                rw [C.cls c hWc, v5]
              · rcases C.new c hc with h1 | ⟨_, h1⟩
                · rw [v3] at h1; rw [b3]; exact .inl h1
                · refine .inr fun hb => h1 (vblk c ?_)
                  obtain ⟨b, t, k1, k2, k3, k4, k5⟩ := hb
                  exact ⟨b, t, k1, k2, by rw [← b1]; exact k3, by rw [← b2]; exact k4, by rw [← b2]; exact k5⟩
              · exfalso
                rcases C.new j hm with h1 | ⟨h1, _⟩
                · rw [v3] at h1; exact G.unmarked j (by omega) h1
                · omega
              · obtain ⟨l, hl, _⟩ := C.rup v (hv.le hiB fun _ h => h)
                cases hl
          · rename_i sc hpr
            injection h with h; injection h with h1 h2
            subst h1; subst h2
            obtain ⟨pok, hproc⟩ := prop_ok Iv hle hpr
            rcases pok with ⟨_, Ic, Ec⟩ | ⟨g, _⟩
            · obtain ⟨ext, x1, x2⟩ := Ec.stk
              rw [v1] at x1 x2
              refine ⟨W1, hiB, fun _ _ _ _ h => by (cases h), fun s2 s4 fl fl' _ B hd => ?_, fun _ _ h => by (cases h), fun _ => ⟨Ic, hproc rfl, Ec.fr ?_, fun c hc => ?_⟩⟩
              · unfold D.bwdAdd at hd
                obtain ⟨b2', k1, k2⟩ := hcl2 B.inv
                rw [k1] at hd
                dsimp only at hd
                split at hd
                · cases hd
                · rename_i s2r hrm
                  rw [if_neg (by decide)] at hd
                  have BI := B.inv
                  rw [hW1] at BI
                  obtain ⟨I, w2, e2⟩ := BI.removeLemma hWi hrm
                  have f1 : s2r.stk = ext ++ -u :: s.stk := by rw [e2, ← x1]; exact B.stk
                  have f2 : s2r.reason = s2.reason := by rw [e2]
                  have f3 : s2r.mkd = s2.mkd := by rw [e2]
                  have f4 : s2r.cls = s2.cls := by rw [e2]
                  have f6 : s2r.forced = s2r.stk.length := by rw [f1, ← x1, e2]; exact B.forced
                  have hun : u ∉ s2r.stk := by
                    intro hm
                    have h0 := I.just.both hm (by rw [f1]; simp) (G.inv.nz _ (List.mem_of_getElem? hb0) _ (hp0.mem_iff.1 hub.1))
                    rcases I.just.mem hm with ⟨_, h1⟩ | ⟨c', zs', m1, _⟩
                    · cases h1
                    · omega
                  have hbuf : (b2'.filter fun l => s2r.fls l == 0) = [u] := by
                    have hp : (b2'.filter fun l => s2r.fls l == 0).Perm ((u :: zs).filter fun l => s2r.fls l == 0) := (k2.trans (q1.symm.trans (by rw [hzs]))).filter _
                    have hz2 : (zs.filter fun l => s2r.fls l == 0) = [] := by
                      rw [List.filter_eq_nil_iff]
                      intro z hz h0
                      have h0 : s2r.fls z = 0 := by simpa using h0
                      refine I.fls0.1 h0 ?_
                      rw [f1]
                      exact List.mem_append_right _ (List.mem_cons_of_mem _ ((G.inv.fls z).1 (hfz z hz)))
                    rw [List.filter_cons_of_pos (by simpa using I.fls0.2 hun), hz2] at hp
                    exact List.perm_singleton.1 hp
                  have hfl : (b2'.any fun l => s2r.fls (-l) != 0) = true := by
                    rw [List.any_eq_true]
                    exact ⟨u, k2.mem_iff.2 hub.1, by simpa using (I.fls _).2 (by rw [f1]; simp)⟩
                  rw [hbuf, hfl, Bool.or_true] at hd
                  have hnu : -u ∉ ext := x2 _ List.mem_cons_self
                  obtain ⟨fl2, p1, p2⟩ := popTo_ok (u := u) (e := ext) (st := s.stk) (fls := s2r.fls) hnu
                  have hunw : s2r.unwind u = some { s2r with stk := s.stk, fls := fl2, forced := s.stk.length, processed := s.stk.length } := by
                    unfold D.unwind
                    rw [f6, Nat.sub_self, List.drop_zero, f1, p1]; rfl
                  have hd : (match s2r.unwind u with
                    | none => none
                    | some s => (s.rup fuel (s2.mkd.getD i false) [u]).map (·, true)) = some (s4, fl') := hd
                  rw [hunw] at hd
                  obtain ⟨s5, h5, h6⟩ := Option.map_eq_some_iff.1 hd
                  injection h6 with h6 _
                  subst h6
                  have rs2 : ∀ l ∈ s.stk, s2r.reason l.natAbs = s.reason l.natAbs := by
                    intro l hl
                    have hl' : l ∈ sv.stk := by rw [v1]; exact List.mem_cons_of_mem _ hl
                    rw [f2, B.rs l (Ec.mem hl'), Ec.rs l hl', vrs l hl]
                  refine rup_ok (b0 := b0) (s3 := { s2r with stk := s.stk, fls := fl2, forced := s.stk.length, processed := s.stk.length }) ?_ hb0 (fun _ b hb => ?_) (fun hm => ?_) h5
                  · have I2 : Inv Bs W [] (i + 1) { s2r with stk := s.stk, fls := fl2, forced := s.stk.length, processed := s.stk.length } := by
                      refine ⟨I.len, I.mlen, I.ile, I.nz, I.perm, I.on, I.off, I.lt, fun l => ?_, ?_⟩
                      · show fl2 l ≠ 0 ↔ l ∈ s.stk
                        rw [p2 l]
                        by_cases hl : l ∈ s.stk
                        · rw [if_neg (by
                            rintro (h1 | h1)
                            · exact x2 l (List.mem_cons_of_mem _ hl) h1
                            · exact hus2 (h1 ▸ hl))]
                          refine ⟨fun _ => hl, fun _ => (I.fls l).2 ?_⟩
                          rw [f1]; exact List.mem_append_right _ (List.mem_cons_of_mem _ hl)
                        · refine ⟨fun h1 => ?_, fun h1 => absurd h1 hl⟩
                          split at h1
                          · exact absurd rfl h1
                          · rename_i h2
                            rw [not_or] at h2
                            have := (I.fls l).1 h1
                            rw [f1] at this
                            rcases List.mem_append.1 this with h3 | h3
                            · exact absurd h3 h2.1
                            · rcases List.mem_cons.1 h3 with h3 | h3
                              · exact absurd h3 h2.2
                              · exact h3
                      · have := I.just
                        rw [f1] at this
                        exact (this.drop).2
                    refine ⟨I2.bound (Nat.le_of_lt hiB) (fun c hc => G.inv.lt c hc) (fun l hl c hc => ?_), rfl, rfl, rfl, rs2, fun v c hc hWc hbc hv => ?_, fun c hc hWc => ?_, fun c hc => ?_, ?_, ?_⟩
                    · obtain ⟨c', k1, k2⟩ := hsne l hl
                      have hc : s2r.reason l.natAbs = c + 1 := hc
                      rw [rs2 l hl] at hc
                      omega
                    · have hv : s2r.reason v = c + 1 := hv
                      rw [f2] at hv
                      have hWc1 := hb2 c hc hWc
                      have h1 := B.rw v c (by omega) hWc1 hbc hv
                      rcases Ec.rw v c h1 with h1 | h1
                      · exact vrw v c hWc1 hbc h1
                      · exact absurd h1 hWc1
                    · show s2r.cls[c]? = _
                      have hWc1 := hb2 c hc hWc
                      rw [f4, B.cls c (by omega) hWc1, Ec.cls c hWc1, v5, b4 c (by omega)]
                    · have hc : s2r.mkd[c]? = some true := hc
                      rw [f3] at hc
                      rcases B.new c hc with h1 | h1
                      · rw [Ec.mkd, v3] at h1; exact .inl h1
                      · exact .inr fun hb => h1 (Ec.blk (vblk c hb))
                    · show ∀ j : Nat, i + 1 ≤ j → s2r.mkd[j]? = some true → ∀ v, AllTr Bs s2r.mkd j v → _
                      rw [f3]; exact B.sup
                    · show ∀ v, ¬ AllTr Bs s2r.mkd _ v
                      rw [f3]; exact B.fin
                  · rw [List.mem_singleton.1 hb]
                    exact ⟨hp0.mem_iff.1 hub.1, hus, hus2⟩
                  · show s2r.mkd[i]? ≠ _
                    rw [f3]; exact hmarkD hm
              · intro v hv
                rw [v2] at hv
                rw [v1]
                by_cases he : v = u.natAbs
                · exact ⟨-u, List.mem_cons_self, by rw [Int.natAbs_neg]; exact he.symm⟩
                · rw [upd_ne _ _ he] at hv
                  obtain ⟨l, hl, hl2⟩ := G.fresh v hv
                  exact ⟨l, List.mem_cons_of_mem _ hl, hl2⟩
              · rw [Ec.mkd, v3]; exact G.unmarked c (by omega)
            · cases g
        · rename_i hn0 hn1
          injection h with h; injection h with h1 h2
          subst h1; subst h2
          refine ⟨W1, hiB, fun _ _ _ _ h => by (cases h), fun s2 s4 fl fl' _ B hd => fromBack (fun _ => ?_) B hd, fun _ _ h => by (cases h), fun _ => Gb⟩
          match hr2 : r.2.1 with
          | [] => exact absurd hr2 hn0
          | [u] => exact absurd hr2 (hn1 u)
          | _ :: _ :: _ => simp

/-! ## the whole run -/

/-- the lemmas are the clauses from `i` on, in this order -/
def Adds : Nat → List Ent → Prop
  | _, [] => True
  | i, .add c :: es => c = i ∧ Adds (i + 1) es
  | i, .del _ :: es => Adds i es

theorem run_ok {fuel : Nat} : ∀ {es : List Ent} {acc : List (Ent × Bool)} {W : Nat → Prop} {i : Nat} {s s1 : D} {done : List (Ent × Bool)}, Good Bs W i s → Adds i es →
    fwd fuel es acc s = some (s1, done) → ∀ s', bwd fuel done false { s1 with forced := s1.processed } = some s' → ∃ fl s2, bwd fuel acc fl s2 = some s' ∧ Back Bs W i i s s2
  | [], _, _, _, _, _, _, _, _, h => by cases h
  | .del c :: es, acc, W, i, s, s1, done, G, ha, h => by
    intro s' hb
    unfold fwd at h
    split at h
    · cases h
    · rename_i sd hd
      obtain ⟨W1, G1, hB⟩ := del_ok G hd
      obtain ⟨fl, s2, h1, h2⟩ := run_ok (es := es) G1 ha h s' hb
      unfold bwd at h1
      split at h1
      · cases h1
      · rename_i s3 h3
        exact ⟨fl, s3, h1, hB s2 s3 h2 h3⟩
  | .add c :: es, acc, W, i, s, s1, done, G, ha, h => by
    intro s' hb
    obtain ⟨rfl, ha⟩ := ha
    unfold fwd at h
    split at h
    · cases h
    all_goals
      rename_i sd hd
      obtain ⟨W1, _, h1, h2, h3, h4⟩ := add_ok G hd
    · obtain ⟨fl, s2, g1, g2⟩ := run_ok (es := es) (h4 (by simp)) ha h s' hb
      unfold bwd at g1
      split at g1
      · cases g1
      · rename_i s3 fl' g3
        exact ⟨fl', s3, g1, h1 s2 s3 fl fl' rfl g2 g3⟩
    · obtain ⟨fl, s2, g1, g2⟩ := run_ok (es := es) (h4 (by simp)) ha h s' hb
      unfold bwd at g1
      split at g1
      · cases g1
      · rename_i s3 fl' g3
        exact ⟨fl', s3, g1, h2 s2 s3 fl fl' rfl g2 g3⟩
    · injection h with h; injection h with e1 e2
      subst e1; subst e2
      unfold bwd at hb
      split at hb
      · cases hb
      · rename_i s3 fl' g3
        exact ⟨fl', s3, hb, h3 s3 fl' rfl g3⟩

/-! ## parsing -/

theorem getElem?_append_some {α : Type} {a b : List α} {c : Nat} {x : α} (h : a[c]? = some x) : (a ++ b)[c]? = some x := by
  rw [List.getElem?_append_left (List.getElem?_eq_some_iff.1 h).1]; exact h

/-- further clauses, not in use -/
theorem Inv.extend {s s' : D} (h : Inv Bs W L i s) {X : List (List Int)} (hX : ∀ b ∈ X, ∀ l ∈ b, l ≠ 0)
    (e : s' = { s with cls := s.cls ++ X, mkd := s.mkd ++ List.replicate X.length false }) : Inv (Bs ++ X) W L i s' := by
  subst e
  refine ⟨by simp [h.len], by simp [h.mlen], by rw [List.length_append]; exact Nat.le_trans h.ile (Nat.le_add_right _ _), fun b hb => ?_, fun c b hb => ?_, fun c hc => ?_, h.off, h.lt, h.fls, ?_⟩
  · rcases List.mem_append.1 hb with hb | hb
    · exact h.nz b hb
    · exact hX b hb
  · have hb : (s.cls ++ X)[c]? = some b := hb
    by_cases hc : c < s.cls.length
    · rw [List.getElem?_append_left hc] at hb
      obtain ⟨b0, k1, k2⟩ := h.perm c b hb
      exact ⟨b0, getElem?_append_some k1, k2⟩
    · rw [List.getElem?_append_right (by omega)] at hb
      exact ⟨b, by rw [List.getElem?_append_right (by rw [← h.len]; omega), ← h.len]; exact hb, List.Perm.refl _⟩
  · obtain ⟨b, k1, k2⟩ := h.on c hc
    exact ⟨b, getElem?_append_some k1, k2⟩
  · refine h.just.congr (fun _ _ => rfl) (fun l hl c zs h1 h2 => ?_) (fun l hl h0 => ?_)
    · rcases h.just.mem hl with ⟨h0, _⟩ | ⟨c', zs', m1, m2, _⟩
      · omega
      · have : c' = c := by omega
        subst this; exact ⟨m2, getElem?_append_some h2⟩
    · rcases h.just.mem hl with ⟨_, h1⟩ | ⟨c', zs', k1, _⟩
      · exact h1
      · omega

/-- while the original clauses are read -/
structure Rd (Bs : List (List Int)) (W : Nat → Prop) (s : D) : Prop where
  inv : Inv Bs W [] Bs.length s
  cls : s.cls = Bs
  fresh : ∀ v, s.reason v ≠ 0 → ∃ l ∈ s.stk, l.natAbs = v
  unmarked : ∀ c : Nat, s.mkd[c]? ≠ some true
  forced : s.forced = 0
  processed : s.processed = 0
  unit : ∀ l ∈ s.stk, [-l] ∈ Bs

theorem parseOne_ok {s s' : D} {b : List Int} (h : Rd Bs W s) (hb : ∀ l ∈ b, l ≠ 0) (hp : s.parseOne b = some s') : ∃ W', Rd (Bs ++ [b]) W' s' := by
  obtain ⟨sa, hsa⟩ : ∃ sa : D, sa = { s with cls := s.cls ++ [b], mkd := s.mkd ++ [false] } := ⟨_, rfl⟩
  have I0 : Inv (Bs ++ [b]) W [] Bs.length sa := h.inv.extend (X := [b]) (by simpa using hb) hsa
  have hlen : s.cls.length = Bs.length := h.inv.len
  have I1 : Inv (Bs ++ [b]) W [] (Bs ++ [b]).length sa := by
    refine I0.bound (Nat.le_refl _) (fun c hc => by have := I0.lt c hc; simp; omega) fun l hl c hc => ?_
    rcases I0.just.mem hl with ⟨_, h1⟩ | ⟨c', zs', k1, k2, _⟩
    · cases h1
    · simp; omega
  have cb : sa.cls[Bs.length]? = some b := by rw [hsa]; show (s.cls ++ [b])[Bs.length]? = _; rw [← hlen]; simp
  have ca : sa.cls = Bs ++ [b] := by rw [hsa, h.cls]
  have hmk : ∀ c : Nat, sa.mkd[c]? ≠ some true := by
    intro c hc
    rw [hsa] at hc
    have hc : (s.mkd ++ [false])[c]? = some true := hc
    by_cases hl : c < s.mkd.length
    · rw [List.getElem?_append_left hl] at hc; exact h.unmarked c hc
    · rw [List.getElem?_append_right (by omega)] at hc
      have := List.mem_of_getElem? hc
      simp at this
  have hst : sa.stk = s.stk := by rw [hsa]
  have hre : sa.reason = s.reason := by rw [hsa]
  have hWn : ¬ W Bs.length := fun hW => absurd (h.inv.lt _ hW) (by omega)
  have hun : ∀ l ∈ s.stk, [-l] ∈ Bs ++ [b] := fun l hl => List.mem_append_left _ (h.unit l hl)
  have Ra : Rd (Bs ++ [b]) W sa := ⟨I1, ca, by rw [hst, hre]; exact h.fresh, hmk, by rw [hsa]; exact h.forced, by rw [hsa]; exact h.processed, by rw [hst]; exact hun⟩
  unfold D.parseOne at hp
  dsimp only at hp
  match b with
  | [] => cases hp
  | [l] =>
    dsimp only at hp
    have hp : (if sa.fls l ≠ 0 then none else if sa.fls (-l) = 0 then some { sa.assign l with reason := upd s.reason l.natAbs (Bs.length + 1) } else some sa) = some s' := by
      rw [← hlen, hsa]; exact hp
    split at hp
    · cases hp
    · rename_i hf
      rw [not_not] at hf
      split at hp
      · rename_i hf2
        injection hp with hp
        have hp : { sa.assign l with reason := upd sa.reason l.natAbs (Bs.length + 1) } = s' := by rw [hre]; exact hp
        have n1 : l ∉ sa.stk := I1.fls0.1 hf
        have n2 : -l ∉ sa.stk := I1.fls0.1 hf2
        have E : Ext (fun _ => True) sa s' := Ext.push trivial n1 n2 hp.symm
        refine ⟨W, I1.push (c := Bs.length) (by simp) cb (by simp) n1 n2 hp.symm, by rw [← hp]; exact ca, E.fr Ra.fresh, by rw [E.mkd]; exact hmk, by rw [E.forced]; exact Ra.forced, by rw [← hp]; exact Ra.processed, fun k hk => ?_⟩
        rw [← hp] at hk
        have hk : k ∈ -l :: sa.stk := hk
        rcases List.mem_cons.1 hk with rfl | hk
        · rw [Int.neg_neg]; simp
        · exact Ra.unit k hk
      · injection hp with hp; subst hp
        exact ⟨W, Ra⟩
  | x :: y :: zs =>
    dsimp only at hp
    rw [← hsa, hlen] at hp
    obtain ⟨w, e, _⟩ := addWatches_eq cb hp
    refine ⟨_, I1.add hWn (by simp) cb (by simp) hp, by rw [e]; exact ca, by rw [e]; exact Ra.fresh, by rw [e]; exact hmk, by rw [e]; exact Ra.forced, by rw [e]; exact Ra.processed, by rw [e]; exact Ra.unit⟩

theorem parseOrig_ok : ∀ {bs Bs : List (List Int)} {W : Nat → Prop} {s s' : D}, Rd Bs W s → (∀ b ∈ bs, ∀ l ∈ b, l ≠ 0) → s.parseOrig bs = some s' → ∃ W', Rd (Bs ++ bs) W' s'
  | [], Bs, W, s, s', h, _, hp => by
    injection hp with hp; subst hp
    exact ⟨W, by rw [List.append_nil]; exact h⟩
  | b :: bs, Bs, W, s, s', h, hz, hp => by
    unfold D.parseOrig at hp
    split at hp
    · cases hp
    · rename_i s1 h1
      obtain ⟨W1, R1⟩ := parseOne_ok h (hz b List.mem_cons_self) h1
      obtain ⟨W2, R2⟩ := parseOrig_ok R1 (fun c hc => hz c (List.mem_cons_of_mem _ hc)) hp
      exact ⟨W2, by rw [List.append_assoc] at R2; exact R2⟩

theorem parseOne_none {s : D} {b : List Int} (h : Rd Bs W s) (hp : s.parseOne b = none) : b = [] ∨ ∃ l, b = [l] ∧ [-l] ∈ Bs := by
  unfold D.parseOne at hp
  dsimp only at hp
  match b with
  | [] => exact .inl rfl
  | [l] =>
    dsimp only at hp
    split at hp
    · rename_i hf
      exact .inr ⟨l, rfl, h.unit l ((h.inv.fls l).1 hf)⟩
    · split at hp <;> cases hp
  | x :: y :: zs =>
    unfold D.addWatches at hp
    dsimp only at hp
    have : (s.cls ++ [x :: y :: zs])[s.cls.length]? = some (x :: y :: zs) := by simp
    rw [this] at hp
    cases hp

theorem parseOrig_none : ∀ {bs Bs : List (List Int)} {W : Nat → Prop} {s : D}, Rd Bs W s → (∀ b ∈ bs, ∀ l ∈ b, l ≠ 0) → s.parseOrig bs = none → [] ∈ bs ∨ ∃ l, [l] ∈ Bs ++ bs ∧ [-l] ∈ Bs ++ bs
  | [], _, _, _, _, _, hp => by cases hp
  | b :: bs, Bs, W, s, h, hz, hp => by
    unfold D.parseOrig at hp
    split at hp
    · rename_i h1
      rcases parseOne_none h h1 with rfl | ⟨l, rfl, hl⟩
      · exact .inl List.mem_cons_self
      · exact .inr ⟨l, by simp, List.mem_append_left _ hl⟩
    · rename_i s1 h1
      obtain ⟨W1, R1⟩ := parseOne_ok h (hz b List.mem_cons_self) h1
      rcases parseOrig_none R1 (fun c hc => hz c (List.mem_cons_of_mem _ hc)) hp with h2 | ⟨l, h2, h3⟩
      · exact .inl (List.mem_cons_of_mem _ h2)
      · rw [List.append_assoc] at h2 h3
        exact .inr ⟨l, h2, h3⟩

theorem parseTrace_ok {hash : List Int → Nat} : ∀ {tr : List (List Int)} {ht : Nat → List Nat} {cls cls' : List (List Int)} {es : List Ent}, (∀ ln ∈ tr, ∀ l ∈ ln.tail, l ≠ 0) →
    parseTrace hash ht cls tr = some (cls', es) → Adds cls.length es ∧ ∃ X, cls' = cls ++ X ∧ ∀ b ∈ X, ∀ l ∈ b, l ≠ 0
  | [], _, cls, _, _, _, h => by
    injection h with h; injection h with h1 h2; subst h1; subst h2
    exact ⟨trivial, [], by simp, by simp⟩
  | [] :: _, _, _, _, _, _, h => by cases h
  | (k :: b) :: tr, ht, cls, cls', es, hz, h => by
    unfold parseTrace at h
    split at h
    · split at h
      · cases h
      · split at h
        · cases h
        · obtain ⟨r, hr, he⟩ := Option.map_eq_some_iff.1 h
          injection he with h1 h2; subst h1; subst h2
          exact parseTrace_ok (tr := tr) (es := r.2) (fun ln hl => hz ln (List.mem_cons_of_mem _ hl)) hr
    · dsimp only at h
      have hb : ∀ l ∈ b, l ≠ 0 := hz (k :: b) List.mem_cons_self
      match b with
      | [] =>
        injection h with h; injection h with h1 h2; subst h1; subst h2
        exact ⟨⟨rfl, trivial⟩, [[]], rfl, by simp⟩
      | x :: xs =>
        dsimp only at h
        obtain ⟨r, hr, he⟩ := Option.map_eq_some_iff.1 h
        injection he with h1 h2; subst h1; subst h2
        obtain ⟨g1, X, g2, g3⟩ := parseTrace_ok (tr := tr) (cls' := r.1) (es := r.2) (fun ln hl => hz ln (List.mem_cons_of_mem _ hl)) hr
        refine ⟨⟨rfl, by simpa using g1⟩, (x :: xs) :: X, by rw [g2]; simp, fun b' hb' => ?_⟩
        rcases List.mem_cons.1 hb' with rfl | hb'
        · exact hb
        · exact g3 b' hb'

theorem skipDels_ok : ∀ {es : List Ent} {i : Nat}, Adds i es → Adds i (skipDels es)
  | [], _, h => h
  | .del _ :: es, _, h => skipDels_ok (es := es) h
  | .add _ :: _, _, h => h

/-! ## the core -/

/-- the marked clauses before `n` contradict each other -/
theorem core_ok {s : D} {n : Nat} (hn : n ≤ Bs.length) (hl : s.cls.length = Bs.length) (hml : s.mkd.length = Bs.length) (hp : ∀ (c : Nat) b, s.cls[c]? = some b → ∃ b0, Bs[c]? = some b0 ∧ b.Perm b0)
    (hu : ∀ v, ¬ AllTr Bs s.mkd n v) : (∀ k ∈ s.core n, ∃ o ∈ Bs.take n, k.Perm o) ∧ ∀ v, ∃ k ∈ s.core n, ∀ l ∈ k, val v l = false := by
  have mem : ∀ k, k ∈ s.core n ↔ ∃ c : Nat, c < n ∧ s.cls[c]? = some k ∧ s.mkd[c]? = some true := by
    intro k
    unfold D.core
    rw [List.mem_map]
    constructor
    · rintro ⟨⟨a, b⟩, h, rfl⟩
      rw [List.mem_filter] at h
      obtain ⟨h1, h2⟩ := h
      obtain ⟨c, hc⟩ := List.mem_iff_getElem?.1 h1
      rw [List.getElem?_take] at hc
      split at hc
      · rename_i hcn
        rw [List.getElem?_zip_eq_some] at hc
        exact ⟨c, hcn, hc.1, by rw [hc.2]; exact congrArg some h2⟩
      · cases hc
    · rintro ⟨c, hc, h1, h2⟩
      refine ⟨(k, true), List.mem_filter.2 ⟨List.mem_iff_getElem?.2 ⟨c, ?_⟩, rfl⟩, rfl⟩
      rw [List.getElem?_take, if_pos hc, List.getElem?_zip_eq_some]
      exact ⟨h1, h2⟩
  refine ⟨fun k hk => ?_, fun v => ?_⟩
  · obtain ⟨c, hc, h1, _⟩ := (mem k).1 hk
    obtain ⟨b0, k1, k2⟩ := hp c k h1
    exact ⟨b0, List.mem_iff_getElem?.2 ⟨c, by rw [List.getElem?_take, if_pos hc]; exact k1⟩, k2⟩
  · apply Classical.byContradiction
    intro hno
    refine hu v fun c hc hm b0 hb0 => ?_
    have hlt : c < s.cls.length := by rw [hl]; omega
    obtain ⟨b0', k1, k2⟩ := hp c _ (List.getElem?_eq_getElem hlt)
    rw [hb0] at k1; injection k1 with k1; subst k1
    apply Classical.byContradiction
    intro hnt
    refine hno ⟨s.cls[c], (mem _).2 ⟨c, hc, List.getElem?_eq_getElem hlt, hm⟩, fun l hl => ?_⟩
    cases hval : val v l
    · rfl
    · exact absurd ⟨l, k2.mem_iff.1 hl, hval⟩ hnt

/-- the marked lemmas follow from the marked original clauses -/
theorem Back.orig {n : Nat} {s s2 : D} (B : Back Bs W n n s s2) : ∀ v, ¬ AllTr Bs s2.mkd n v := by
  intro v hv
  have : ∀ j : Nat, AllTr Bs s2.mkd j v := by
    intro j
    induction j with
    | zero => intro c hc; omega
    | succ j ih =>
      intro c hc hm b hb
      by_cases hcj : c = j
      · subst hcj
        by_cases hn : c < n
        · exact hv c hn hm b hb
        · exact B.sup c (by omega) hm v ih b hb
      · exact ih c (by omega) hm b hb
  exact B.fin v (this _)

theorem verify_ok {fuel n : Nat} {ents : List Ent} {s : D} {core : List (List Int)} (I : Inv Bs W [] n s) (hfr : ∀ v, s.reason v ≠ 0 → ∃ l ∈ s.stk, l.natAbs = v)
    (hun : ∀ c : Nat, s.mkd[c]? ≠ some true) (hf : s.forced = 0) (hp : s.processed = 0) (ha : Adds n ents) (h : s.verify fuel n ents = some core) :
    (∀ k ∈ core, ∃ o ∈ Bs.take n, k.Perm o) ∧ ∀ v, ∃ k ∈ core, ∀ l ∈ k, val v l = false := by
  have rest : ∀ s1 : D, Good Bs W n s1 → ∀ sf done, fwd fuel ents [] { s1 with forced := s1.processed } = some (sf, done) →
      (bwd fuel done false { sf with forced := sf.processed }).map (·.core n) = some core → (∀ k ∈ core, ∃ o ∈ Bs.take n, k.Perm o) ∧ ∀ v, ∃ k ∈ core, ∀ l ∈ k, val v l = false := by
    intro s1 G sf done h1 h2
    obtain ⟨s', h3, rfl⟩ := Option.map_eq_some_iff.1 h2
    have Gi := G.inv
    have G' : Good Bs W n { s1 with forced := s1.processed } :=
      ⟨⟨Gi.len, Gi.mlen, Gi.ile, Gi.nz, Gi.perm, Gi.on, Gi.off, Gi.lt, Gi.fls, Gi.just⟩, G.processed, G.fresh, G.unmarked⟩
    obtain ⟨fl, s2, h4, B⟩ := run_ok G' ha h1 s' h3
    injection h4 with h4; subst h4
    exact core_ok B.inv.ile B.inv.len B.inv.mlen B.inv.perm B.orig
  unfold D.verify at h
  by_cases hlt : s.processed < s.stk.length
  · rw [if_pos hlt] at h
    split at h
    · cases h
    · rename_i s1 hpr
      injection h with h; subst h
      rcases (prop_ok I (by omega) hpr).1 with ⟨g, _⟩ | ⟨_, C⟩
      · exact absurd rfl g
      · refine core_ok C.inv.ile C.inv.len C.inv.mlen C.inv.perm fun v hv => ?_
        obtain ⟨l, hl, _⟩ := C.rup v hv
        cases hl
    · rename_i s1 hpr
      obtain ⟨pok, hproc⟩ := prop_ok I (by omega) hpr
      rcases pok with ⟨_, I1, E⟩ | ⟨g, _⟩
      · split at h
        · cases h
        · rename_i sf done hfw
          exact rest s1 ⟨I1, hproc rfl, E.fr hfr, fun c _ => by rw [E.mkd]; exact hun c⟩ sf done hfw h
      · cases g
  · rw [if_neg hlt] at h
    dsimp only at h
    split at h
    · cases h
    · rename_i sf done hfw
      exact rest s ⟨I, by omega, hfr, fun c _ => hun c⟩ sf done hfw h

theorem rd_init : Rd [] (fun _ => False) {} :=
  ⟨⟨rfl, rfl, Nat.le_refl _, by simp, fun c b h => by simp at h, fun c h => h.elim, fun c _ l => rfl, fun c h => h.elim, fun l => by simp, trivial⟩, rfl, fun v h => absurd rfl h, fun c h => by simp at h, rfl, rfl, fun l h => by cases h⟩

/-- **C19**, the DRUP check: for every list of clauses, every trace and every hash function, if the check yields a core, then the core consists of original clauses (up to the order of their literals), and it is unsatisfiable.
Nothing is assumed of the trace: a wrong trace ends in a panic. -/
theorem C19_drup {hash : List Int → Nat} {fuel : Nat} {orig trace core : List (List Int)} (h1 : ∀ b ∈ orig, ∀ l ∈ b, l ≠ 0) (h2 : ∀ ln ∈ trace, ∀ l ∈ ln.tail, l ≠ 0)
    (h : drupCompute hash fuel orig trace = some (.core core)) : (∀ k ∈ core, ∃ o ∈ orig, k.Perm o) ∧ ∀ v, ∃ k ∈ core, ∀ l ∈ k, val v l = false := by
  unfold drupCompute at h
  split at h
  · injection h with h; cases h
  · rename_i s hs
    obtain ⟨W, R⟩ := parseOrig_ok rd_init h1 hs
    rw [List.nil_append] at R
    split at h
    · cases h
    · rename_i cls ents ht
      obtain ⟨ha, X, rfl, hX⟩ := parseTrace_ok h2 ht
      obtain ⟨c, hc, he⟩ := Option.map_eq_some_iff.1 h
      injection he with he; subst he
      have hk : (orig ++ X).length - orig.length = X.length := by simp
      rw [hk] at hc
      have I : Inv (orig ++ X) W [] orig.length { s with cls := orig ++ X, mkd := s.mkd ++ List.replicate X.length false } := R.inv.extend hX (by rw [R.cls])
      have := verify_ok I R.fresh (fun c hc => by
        have hc : (s.mkd ++ List.replicate X.length false)[c]? = some true := hc
        by_cases hl : c < s.mkd.length
        · rw [List.getElem?_append_left hl] at hc; exact R.unmarked c hc
        · rw [List.getElem?_append_right (by omega)] at hc
          have := List.mem_of_getElem? hc
          simp at this) R.forced R.processed (skipDels_ok ha) hc
      rw [List.take_left'] at this
      · exact this
      · rfl

/-- C19: the trivial answer means an empty clause or two complementary unit clauses. -/
theorem C19_drup_trivial {hash : List Int → Nat} {fuel : Nat} {orig trace : List (List Int)} (h1 : ∀ b ∈ orig, ∀ l ∈ b, l ≠ 0) (h : drupCompute hash fuel orig trace = some .trivial) :
    [] ∈ orig ∨ ∃ l, [l] ∈ orig ∧ [-l] ∈ orig := by
  unfold drupCompute at h
  split at h
  · rename_i hs
    simpa using parseOrig_none rd_init h1 hs
  · split at h
    · cases h
    · obtain ⟨c, _, he⟩ := Option.map_eq_some_iff.1 h
      cases he

/-- the hypotheses of `C19_drup` for a run with lemmas and a deletion -/
example : (∀ b ∈ exOrig, ∀ l ∈ b, l ≠ 0) ∧ (∀ ln ∈ [[1, 1, 4], [-1, 1, 4], [1, 1]], ∀ l ∈ (ln : List Int).tail, l ≠ 0) ∧
    drupCompute (fun b => b.length) 40 exOrig [[1, 1, 4], [-1, 1, 4], [1, 1]] = some (.core [[2, 1], [-2, 1], [3, -1], [-3, -1]]) := by decide +kernel

example : drupCompute (fun _ => 0) 30 exOrig [[1, 1]] = some (.core [[2, 1], [-2, 1], [3, -1], [-3, -1]]) := by decide +kernel
example : drupCompute (fun b => b.length) 40 exOrig [[1, 1, 4], [-1, 1, 4], [1, 1]] = some (.core [[2, 1], [-2, 1], [3, -1], [-3, -1]]) := by decide +kernel
example : drupCompute (fun _ => 0) 30 [[1], [2], [-1]] [] = some .trivial := by decide +kernel
/-- a lemma which does not follow by propagation -/
example : drupCompute (fun _ => 0) 30 [[1, 2], [-1, 2]] [[1, -2]] = none := by decide +kernel

end

end Verif.Drup
