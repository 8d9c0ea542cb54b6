import Verif.MaxSat.SwcInc
import Verif.MaxSat.LinearSUW
import Verif.MaxSat.Msu3
import Verif.MaxSat.SubsetSum

/-! # WMSU3 (alg_wmsu3.go) -/

namespace Verif.MaxAlg

open Verif.MaxSat (litVal clauseVal costC raise)

/-! ## model -/

/-- `m.softClauses[i].weight` -/
def Prob.wt (P : Prob) (i : Nat) : Nat := match P.soft[i]? with
  | some c => c.2
  | none => 0

/-- the relaxation literals of the active soft clauses with their weights (alg_wmsu3.go:109-111) -/
def Prob.curW (P : Prob) (act : Nat → Bool) : List (Nat × Nat) := ((List.range P.soft.length).filter act).map fun i => (2 * (P.n + i), P.wt i)

/-- the assumptions for the others of at least the given weight (alg_wmsu3.go:86-90, 112-114, 184-188) -/
def Prob.restW (P : Prob) (w : Nat) (act : Nat → Bool) : List Nat := ((List.range P.soft.length).filter fun i => !act i && decide (w ≤ P.wt i)).map fun i => neg (2 * (P.n + i))

/-- alg_wmsu3.go:173-183: the soft clauses of the conflict that become active, with `objFunction` and `coeffs` -/
def Prob.newW (P : Prob) : (Nat → Bool) → List Nat → (Nat → Bool) × List (Nat × Nat)
  | act, [] => (act, [])
  | act, l :: ls => match P.coreIdx l with
    | none => P.newW act ls
    | some i => if act i then P.newW act ls
        else ((P.newW (fun j => act j || decide (j = i)) ls).1, (2 * (P.n + i), P.wt i) :: (P.newW (fun j => act j || decide (j = i)) ls).2)

/-- alg_wmsu3.go:139-203, the loop of `iterative` (`currentWeight` is 1).  `full` is `fullCoeffsFunction`. -/
def wmsu3Iter (P : Prob) (O : Orc) (H : Nat → Bool) : Nat → Nat → Swc → Sol → List Nat → (Nat → Bool) → List Nat → Nat → Nat → Nat → (Nat → Bool) → Option Res
  | 0, _, _, _, _, _, _, _, _, _, _ => none
  | f + 1, k, sw, s, as, act, full, nb, lb, ub, u => match O k s as with
    | .cancel => some .cancel
    | .sat v =>
      let better := decide (costC v P.soft < ub ∨ nb = 0)
      let ub := if better then costC v P.soft else ub
      let u := if better then v else u
      if ub = 0 ∨ lb = ub ∨ 1 < nb + 1 then some (.opt ub u)
      else if H k = false then some .cancel
      else wmsu3Iter P O H f (k + 1) sw s (as ++ P.restW 1 act) act full (nb + 1) lb ub u
    | .unsat core => if nb = 0 then some .unsat
        else if lb = ub then some (.opt ub u)
        else if H k = false then some .cancel
        else
          let r := P.newW act core
          let full := full ++ r.2.map (·.2)
          (raise full f (lb + 1)).bind fun lb =>
            let e := sw.next s r.2 lb
            wmsu3Iter P O H f (k + 1) e.1 e.2.1 (P.restW 1 r.1 ++ e.2.2) r.1 full nb lb ub u

/-- alg_wmsu3.go:70-123, the loop of `none`; `cw` is `currentWeight` -/
def wmsu3None (P : Prob) (O : Orc) (H : Nat → Bool) (cw : Nat) : Nat → Nat → Sol → List Nat → (Nat → Bool) → Nat → Nat → Nat → (Nat → Bool) → Option Res
  | 0, _, _, _, _, _, _, _, _ => none
  | f + 1, k, s, as, act, nb, lb, ub, u => match O k s as with
    | .cancel => some .cancel
    | .sat v =>
      let better := decide (costC v P.soft < ub ∨ nb = 0)
      let ub := if better then costC v P.soft else ub
      let u := if better then v else u
      if ub = 0 ∨ lb = ub ∨ (cw = 1 ∧ 1 < nb + 1) then some (.opt ub u)
      else if H k = false then some .cancel
      else wmsu3None P O H cw f (k + 1) s (as ++ P.restW cw act) act (nb + 1) lb ub u
    | .unsat core => if nb = 0 then some .unsat
        else if lb = ub then some (.opt ub u)
        else if H k = false then some .cancel
        else
          let act : Nat → Bool := fun i => act i || core.any fun l => decide ((P.coreIdx l).getD 0 = i)
          (raise ((P.curW act).map (·.2)) f (lb + 1)).bind fun lb =>
            let e := Swc.encode {} (P.relaxed 0) (P.curW act) lb
            wmsu3None P O H cw f (k + 1) e.2.1 (P.restW cw act) act nb lb ub u

/-! ## the iterative search -/

theorem Prob.wt_mem {P : Prob} {i : Nat} (h : i < P.soft.length) : ∃ c ∈ P.soft, P.wt i = c.2 := by
  unfold Prob.wt
  rw [List.getElem?_eq_getElem h]
  exact ⟨_, List.getElem_mem h, rfl⟩

theorem Prob.Pos.restW {P : Prob} (hp : P.Pos) (act : Nat → Bool) : P.restW 1 act = P.rest act := by
  unfold Prob.restW Prob.rest
  congr 1
  refine List.filter_congr fun i hi => ?_
  obtain ⟨c, hc, e⟩ := Prob.wt_mem (List.mem_range.1 hi)
  rw [e, decide_eq_true (hp c hc), Bool.and_true]

theorem Prob.objW_eq (P : Prob) : P.objW = (List.range P.soft.length).map fun i => (2 * (P.n + i), P.wt i) := by
  unfold Prob.objW Prob.wt
  apply List.ext_getElem
  · simp
  · intro i h1 h2
    have h3 : i < P.soft.length := by simpa using h1
    simp [h3]

theorem Prob.mem_curW {P : Prob} {act : Nat → Bool} {x : Nat × Nat} : x ∈ P.curW act ↔ ∃ i < P.soft.length, act i = true ∧ x = (2 * (P.n + i), P.wt i) := by
  unfold Prob.curW
  rw [List.mem_map]
  constructor
  · rintro ⟨i, hi, rfl⟩
    obtain ⟨h1, h2⟩ := List.mem_filter.1 hi
    exact ⟨i, List.mem_range.1 h1, h2, rfl⟩
  · rintro ⟨i, h1, h2, rfl⟩
    exact ⟨i, List.mem_filter.2 ⟨List.mem_range.2 h1, h2⟩, rfl⟩

theorem Prob.curW_nodup (P : Prob) (act : Nat → Bool) : (P.curW act).Nodup := by
  unfold Prob.curW
  refine List.Nodup.map (fun a b h => ?_) (List.Nodup.filter _ List.nodup_range)
  have h : 2 * (P.n + a) = 2 * (P.n + b) := congrArg Prod.fst h
  omega

theorem Prob.curW_add {P : Prob} {act : Nat → Bool} {i : Nat} (hi : i < P.soft.length) (ha : act i = false) :
    (P.curW act ++ [(2 * (P.n + i), P.wt i)]).Perm (P.curW fun j => act j || decide (j = i)) := by
  refine (List.perm_ext_iff_of_nodup ?_ (P.curW_nodup _)).2 fun x => ?_
  · refine List.nodup_append.2 ⟨P.curW_nodup _, List.nodup_singleton _, fun x hx y hy e => ?_⟩
    obtain ⟨j, _, h2, rfl⟩ := Prob.mem_curW.1 hx
    rw [List.mem_singleton.1 hy] at e
    have : 2 * (P.n + j) = 2 * (P.n + i) := congrArg Prod.fst e
    have : j = i := by omega
    rw [this, ha] at h2; cases h2
  · rw [List.mem_append, Prob.mem_curW, Prob.mem_curW, List.mem_singleton]
    constructor
    · rintro (⟨j, h1, h2, rfl⟩ | rfl)
      · exact ⟨j, h1, by rw [h2]; rfl, rfl⟩
      · exact ⟨i, hi, by simp, rfl⟩
    · rintro ⟨j, h1, h2, rfl⟩
      by_cases h : j = i
      · rw [h]; exact .inr rfl
      · exact .inl ⟨j, h1, by simpa [h] using h2, rfl⟩

/-- the soft clauses of the conflict become active -/
theorem Prob.newW_spec (P : Prob) : ∀ (core : List Nat) (act : Nat → Bool), (P.curW act ++ (P.newW act core).2).Perm (P.curW (P.newW act core).1) ∧
    (∀ i, act i = true → (P.newW act core).1 i = true) ∧ (∀ l ∈ core, ∀ i, P.coreIdx l = some i → (P.newW act core).1 i = true) ∧
    ∀ x ∈ (P.newW act core).2, ∃ i < P.soft.length, x = (2 * (P.n + i), P.wt i)
  | [], act => ⟨by rw [Prob.newW]; simp, fun i h => h, fun l hl => (nomatch hl), fun x hx => (nomatch hx)⟩
  | l :: ls, act => by
    rw [Prob.newW]
    cases e : P.coreIdx l with
    | none =>
      obtain ⟨h1, h2, h3, h4⟩ := P.newW_spec ls act
      refine ⟨h1, h2, fun l' hl' i hi => ?_, h4⟩
      rcases List.mem_cons.1 hl' with rfl | hl'
      · rw [e] at hi; cases hi
      · exact h3 l' hl' i hi
    | some i =>
      dsimp only
      by_cases ha : act i = true
      · rw [if_pos ha]
        obtain ⟨h1, h2, h3, h4⟩ := P.newW_spec ls act
        refine ⟨h1, h2, fun l' hl' j hj => ?_, h4⟩
        rcases List.mem_cons.1 hl' with rfl | hl'
        · rw [e] at hj; injection hj with hj; rw [← hj]; exact h2 i ha
        · exact h3 l' hl' j hj
      · rw [if_neg ha]
        have ha : act i = false := by simpa using ha
        have hi := (Prob.coreIdx_some e).1
        obtain ⟨h1, h2, h3, h4⟩ := P.newW_spec ls fun j => act j || decide (j = i)
        refine ⟨?_, fun j hj => h2 j (by rw [hj]; rfl), fun l' hl' j hj => ?_, fun x hx => ?_⟩
        · dsimp only
          rw [← List.singleton_append, ← List.append_assoc]
          exact ((Prob.curW_add hi ha).append_right _).trans h1
        · rcases List.mem_cons.1 hl' with rfl | hl'
          · rw [e] at hj; injection hj with hj; exact h2 j (by simp [hj])
          · exact h3 l' hl' j hj
        · rcases List.mem_cons.1 hx with rfl | hx
          · exact ⟨i, hi, rfl⟩
          · exact h4 x hx

theorem wsum_mono_filter {u : Nat → Bool} {g : Nat → Nat × Nat} {a b : Nat → Bool} : ∀ {l : List Nat}, (∀ i ∈ l, a i = true → b i = true) → wsum u ((l.filter a).map g) ≤ wsum u ((l.filter b).map g)
  | [], _ => Nat.le_refl _
  | i :: l, h => by
    have ih := wsum_mono_filter (u := u) (g := g) (a := a) (b := b) (l := l) fun i hi => h i (List.mem_cons_of_mem _ hi)
    have h0 := h i List.mem_cons_self
    rw [List.filter_cons, List.filter_cons]
    by_cases ha : a i = true
    · rw [if_pos ha, if_pos (h0 ha), List.map_cons, List.map_cons, wsum, wsum]; omega
    · rw [if_neg ha]
      split
      · rw [List.map_cons, wsum]; omega
      · exact ih

theorem wsum_drop_filter {u : Nat → Bool} {g : Nat → Nat × Nat} {a : Nat → Bool} : ∀ {l : List Nat}, (∀ i ∈ l, a i = false → litVal u (g i).1 = false) → wsum u (l.map g) = wsum u ((l.filter a).map g)
  | [], _ => rfl
  | i :: l, h => by
    have ih := wsum_drop_filter (u := u) (g := g) (a := a) (l := l) fun i hi => h i (List.mem_cons_of_mem _ hi)
    have h0 := h i List.mem_cons_self
    rw [List.filter_cons]
    by_cases ha : a i = true
    · rw [if_pos ha, List.map_cons, List.map_cons, wsum, wsum, ih]
    · rw [if_neg ha, List.map_cons, wsum, ih, if_neg (by rw [h0 (by simpa using ha)]; simp), Nat.zero_add]

/-- every assignment violates active soft clauses of weight at least `lb` -/
def WLow (P : Prob) (act : Nat → Bool) (lb : Nat) : Prop := ∀ v, P.Holds v → P.Tight v → lb ≤ wsum v (P.curW act)

theorem Prob.curW_le (P : Prob) (act : Nat → Bool) (v : Nat → Bool) : wsum v (P.curW act) ≤ wsum v P.objW := by
  rw [P.objW_eq]
  have := wsum_mono_filter (u := v) (g := fun i => (2 * (P.n + i), P.wt i)) (a := act) (b := fun _ => true) (l := List.range P.soft.length) fun _ _ _ => rfl
  rwa [List.filter_eq_self.2 fun _ _ => rfl] at this

theorem WLow.lower {P : Prob} (hw : P.WF) {act : Nat → Bool} {lb : Nat} (h : WLow P act lb) : ∀ v, P.Holds v → lb ≤ costC v P.soft := by
  intro v hv
  obtain ⟨w, _, hv', ht, hc⟩ := Prob.exists_tight hw hv
  rw [← hc, ht.cost]
  exact Nat.le_trans (h w hv' ht) (P.curW_le act w)

theorem Prob.objW_le_curW {P : Prob} {act : Nat → Bool} {u : Nat → Bool} (h : ∀ a ∈ P.rest act, litVal u a = true) : wsum u P.objW ≤ wsum u (P.curW act) := by
  rw [P.objW_eq]
  refine Nat.le_of_eq (wsum_drop_filter fun i hi ha => ?_)
  have := h (neg (2 * (P.n + i))) (List.mem_map.2 ⟨i, List.mem_filter.2 ⟨hi, by simpa using ha⟩, rfl⟩)
  rw [litVal_neg] at this
  simpa using this

/-- the weights of the true literals are a sub-multiset of the weights -/
theorem wsum_attain (u : Nat → Bool) : ∀ xs : List (Nat × Nat), ∃ l : List Nat, l.Sublist (xs.map (·.2)) ∧ l.sum = wsum u xs
  | [] => ⟨[], List.Sublist.refl _, rfl⟩
  | (x, w) :: xs => by
    obtain ⟨l, h1, h2⟩ := wsum_attain u xs
    rw [wsum]
    split
    · exact ⟨w :: l, h1.cons_cons w, by rw [List.sum_cons, h2]⟩
    · exact ⟨l, h1.cons w, by rw [h2, Nat.zero_add]⟩

theorem wsum_le_sum (u : Nat → Bool) : ∀ xs : List (Nat × Nat), wsum u xs ≤ (xs.map (·.2)).sum
  | [] => Nat.le_refl _
  | (x, w) :: xs => by
    have := wsum_le_sum u xs
    rw [wsum, List.map_cons, List.sum_cons]
    split <;> dsimp only <;> omega

theorem sum_sublist {a b : List Nat} (h : a.Sublist b) : a.sum ≤ b.sum := by
  induction h with
  | slnil => exact Nat.le_refl _
  | cons x _ ih => rw [List.sum_cons]; omega
  | cons_cons x _ ih => rw [List.sum_cons, List.sum_cons]; omega

theorem raise_more {set : List Nat} {r : Nat} : ∀ {f lb : Nat} (k : Nat), raise set f lb = some r → raise set (f + k) lb = some r
  | 0, lb, k, h => by simp [raise] at h
  | f + 1, lb, k, h => by
    rw [show f + 1 + k = (f + k) + 1 by omega]
    rw [raise] at h ⊢
    split
    · rename_i hs; rw [if_pos hs] at h; exact h
    · rename_i hs; rw [if_neg hs] at h; exact raise_more k h

/-- solver and assumptions of the iterative search -/
structure Wm (P : Prob) (act : Nat → Bool) (full : List Nat) (lb : Nat) (sw : Swc) (s : Sol) (as : List Nat) : Prop where
  enc : ∃ acc eas, PbInc (P.relaxed 0) s sw acc lb eas ∧ acc.Perm (P.curW act) ∧ as = P.rest act ++ eas ∧ full = acc.map (·.2)
  low : WLow P act lb

theorem Wm.sat {P : Prob} {act : Nat → Bool} {full : List Nat} {lb : Nat} {sw : Swc} {s : Sol} {as : List Nat} (h : Wm P act full lb sw s as) {u : Nat → Bool} (hu : s.Holds u) (ha : ∀ a ∈ as, litVal u a = true) :
    P.Holds u ∧ costC u P.soft ≤ lb := by
  obtain ⟨acc, eas, h1, h2, h3, -⟩ := h.enc
  have hr := h1.ext.holds hu
  refine ⟨(Prob.relaxed_sound hr).1, Nat.le_trans (Prob.cost_le (w := 0) (fun _ _ => Nat.zero_le _) hr) (Nat.le_trans (Prob.objW_le_curW (act := act) fun a h' => ha a (by rw [h3]; exact List.mem_append_left _ h')) ?_)⟩
  · rw [← wsum_perm h2]
    exact h1.sound hu fun a h' => ha a (by rw [h3]; exact List.mem_append_right _ h')

/-- after a core the search goes on with a greater bound -/
theorem Wm.unsat {P : Prob} (hw : P.WF) (hp : P.Pos) {act : Nat → Bool} {full : List Nat} {lb : Nat} {sw : Swc} {s : Sol} {as : List Nat} (h : Wm P act full lb sw s as) {core : List Nat}
    (hc : ∀ l ∈ core, neg l ∈ as) (hu : ∀ u, s.Holds u → ∃ l ∈ core, litVal u l = true) {m : Nat → Bool} (hm : P.Holds m) {f : Nat} (hf : (P.soft.map (·.2)).sum + 1 ≤ f) :
    ∃ lb', raise (full ++ (P.newW act core).2.map (·.2)) f (lb + 1) = some lb' ∧ lb + 1 ≤ lb' ∧
      Wm P (P.newW act core).1 (full ++ (P.newW act core).2.map (·.2)) lb' (sw.next s (P.newW act core).2 lb').1 (sw.next s (P.newW act core).2 lb').2.1
        (P.restW 1 (P.newW act core).1 ++ (sw.next s (P.newW act core).2 lb').2.2) := by
  obtain ⟨acc, eas, h1, h2, h3, h4⟩ := h.enc
  obtain ⟨n1, n2, n3, n4⟩ := P.newW_spec core act
  obtain ⟨r, hr⟩ : ∃ r, P.newW act core = r := ⟨_, rfl⟩
  rw [hr] at n1 n2 n3 n4 ⊢
  have hpm : (acc ++ r.2).Perm (P.curW r.1) := (h2.append_right _).trans n1
  have hfull : full ++ r.2.map (·.2) = (acc ++ r.2).map (·.2) := by rw [List.map_append, h4]
  rw [hfull]
  have hlow : ∀ v, P.Holds v → P.Tight v → lb + 1 ≤ wsum v (acc ++ r.2) := fun v hv ht => by
    rw [wsum_append]
    have h5 := h.low v hv ht
    rw [← wsum_perm h2] at h5
    by_cases hle : wsum v acc ≤ lb
    · obtain ⟨v', g1, g2, g3⟩ := h1.complete (ht.relaxed hv 0) hle
      obtain ⟨l, hl, hlv⟩ := hu v' g2
      have hla := hc l hl
      rw [h3] at hla
      rcases List.mem_append.1 hla with hla | hla
      · obtain ⟨i, hi, he⟩ := List.mem_map.1 hla
        obtain ⟨hi1, hi2⟩ := List.mem_filter.1 hi
        have hlt := List.mem_range.1 hi1
        have hel : l = 2 * (P.n + i) := by rw [← neg_neg l, ← he, neg_neg]
        have hvi : litVal v (2 * (P.n + i)) = true := by
          rw [← hel, ← hlv]
          refine (litVal_congr (g1 _ ?_)).symm
          rw [hel]
          show 2 * (P.n + i) / 2 < P.n + P.soft.length
          omega
        have hri := n3 l hl i (by rw [hel]; exact Prob.coreIdx_lit hlt)
        have hmem : (2 * (P.n + i), P.wt i) ∈ P.curW act ++ r.2 := n1.mem_iff.2 (Prob.mem_curW.2 ⟨i, hlt, hri, rfl⟩)
        rcases List.mem_append.1 hmem with hmem | hmem
        · obtain ⟨j, _, hj, e⟩ := Prob.mem_curW.1 hmem
          have : 2 * (P.n + i) = 2 * (P.n + j) := congrArg Prod.fst e
          have : i = j := by omega
          subst this
          rw [hj] at hi2; cases hi2
        · have hge := wsum_ge hmem hvi
          obtain ⟨c, hc', e⟩ := Prob.wt_mem hlt
          have := hp c hc'
          dsimp only at hge
          omega
      · have := g3 _ hla
        rw [litVal_neg, hlv] at this; cases this
    · omega
  have hsum : lb + 1 ≤ ((acc ++ r.2).map (·.2)).sum := by
    obtain ⟨v, _, hv, ht, _⟩ := Prob.exists_tight hw hm
    exact Nat.le_trans (hlow v hv ht) (wsum_le_sum v _)
  have hsle : ((acc ++ r.2).map (·.2)).sum ≤ (P.soft.map (·.2)).sum := by
    have e1 : ((acc ++ r.2).map (·.2)).sum = ((P.curW r.1).map (·.2)).sum := (hpm.map _).sum_nat
    have e2 : (P.soft.map (·.2)).sum = (P.objW.map (·.2)).sum := by
      unfold Prob.objW
      rw [List.map_map]
      congr 1
      apply List.ext_getElem <;> simp
    rw [e1, e2, P.objW_eq]
    unfold Prob.curW
    exact sum_sublist ((List.filter_sublist.map _).map _)
  obtain ⟨lb', hl'⟩ := Verif.MaxSat.C42_ends _ _ hsum
  obtain ⟨k1, k2, k3⟩ := Verif.MaxSat.C42_no_skip _ _ _ _ hl'
  have hl'' := raise_more (f - (((acc ++ r.2).map (·.2)).sum - (lb + 1) + 1)) hl'
  rw [show ((acc ++ r.2).map (·.2)).sum - (lb + 1) + 1 + (f - (((acc ++ r.2).map (·.2)).sum - (lb + 1) + 1)) = f by omega] at hl''
  refine ⟨lb', hl'', k1, ⟨_, _, h1.next (Prob.relaxed_wf hw 0) (xs := r.2) (lb' := lb') (by omega) (fun x hx => ?_), hpm, by rw [hp.restW], rfl⟩, fun v hv ht => ?_⟩
  · obtain ⟨i, hi, rfl⟩ := n4 x hx
    obtain ⟨c, hc', e⟩ := Prob.wt_mem hi
    refine ⟨?_, ?_⟩
    · show 2 * (P.n + i) / 2 < P.n + P.soft.length
      omega
    · show 0 < P.wt i
      rw [e]; exact hp c hc'
  · rw [← wsum_perm hpm]
    refine Nat.le_of_not_lt fun hlt => k3 _ (hlow v hv ht) hlt (wsum_attain v _)

theorem wmsu3Iter_right {P : Prob} (hw : P.WF) (hp : P.Pos) {O : Orc} (hO : O.Ok) (H : Nat → Bool) :
    ∀ (f k : Nat) (sw : Swc) (s : Sol) (as : List Nat) (act : Nat → Bool) (full : List Nat) (nb lb ub : Nat) (u : Nat → Bool),
    (nb = 0 → sw.has = false ∧ sw.units = [] ∧ s = P.relaxed 0 ∧ as = [] ∧ (∀ i, act i = false) ∧ full = [] ∧ lb = 0 ∧ 2 * (P.soft.map (·.2)).sum + 4 ≤ f) →
    (nb ≠ 0 → Wm P act full lb sw s as ∧ Best P lb ub u ∧ ub + (P.soft.map (·.2)).sum + 2 ≤ f + lb) →
    ∃ r, wmsu3Iter P O H f k sw s as act full nb lb ub u = some r ∧ Right P O H r := by
  intro f
  induction f with
  | zero =>
    intro k sw s as act full nb lb ub u h0 hn
    by_cases hz : nb = 0
    · exact absurd (h0 hz).2.2.2.2.2.2.2 (by omega)
    · obtain ⟨_, h3, h4⟩ := hn hz
      have := h3.lower u h3.holds
      rw [h3.cost] at this; omega
  | succ f ih =>
    intro k sw s as act full nb lb ub u h0 hn
    rw [wmsu3Iter]
    have ho := hO k s as
    split
    · rename_i hm
      exact ⟨_, rfl, .inl ⟨_, _, _, hm⟩⟩
    · rename_i m hm
      rw [hm] at ho
      dsimp only
      by_cases hz : nb = 0
      · obtain ⟨a1, a2, hs, ha, hact, a3, hl, hf⟩ := h0 hz
        have hd : decide (costC m P.soft < ub ∨ nb = 0) = true := decide_eq_true (.inr hz)
        rw [hd, if_pos rfl, if_pos rfl]
        subst hl ha hs a3 hz
        have hact' : act = fun _ => false := funext hact
        subst hact'
        have hh := (Prob.relaxed_sound ho.1).1
        split
        · rename_i hc
          refine ⟨_, rfl, hh, rfl, fun v _ => ?_⟩
          have : costC m P.soft = 0 := by omega
          omega
        · split
          · rename_i hm
            exact ⟨_, rfl, .inr ⟨_, hm⟩⟩
          · refine ih _ _ _ _ _ _ _ _ _ _ (fun e => by omega) fun _ => ⟨⟨⟨[], [], PbInc.start a1 a2, ?_, ?_, rfl⟩, fun _ _ _ => Nat.zero_le _⟩, ⟨hh, rfl, fun _ _ => Nat.zero_le _⟩, ?_⟩
            · unfold Prob.curW
              simp
            · rw [List.nil_append, List.append_nil, hp.restW]
            · have : costC m P.soft ≤ (P.soft.map (·.2)).sum := costC_le_total m P.soft
              omega
      · obtain ⟨h2, h3, h4⟩ := hn hz
        obtain ⟨s1, s2⟩ := h2.sat ho.1 ho.2
        rw [if_pos (c := _ ∨ _) (.inr (.inr (by omega)))]
        refine ⟨_, rfl, ?_⟩
        have hlu := h3.lower u h3.holds
        rw [h3.cost] at hlu
        by_cases hd : costC m P.soft < ub
        · rw [decide_eq_true (.inl hd), if_pos rfl, if_pos rfl]
          exact ⟨s1, rfl, fun v hv => Nat.le_trans s2 (h3.lower v hv)⟩
        · rw [decide_eq_false (by omega), if_neg (by simp), if_neg (by simp)]
          exact ⟨h3.holds, h3.cost, fun v hv => Nat.le_trans (by omega) (h3.lower v hv)⟩
    · rename_i core hm
      rw [hm] at ho
      split
      · rename_i hz
        obtain ⟨_, _, hs, ha, _⟩ := h0 hz
        refine ⟨_, rfl, fun u hu => ?_⟩
        obtain ⟨v, _, hv, ht, _⟩ := Prob.exists_tight hw hu
        obtain ⟨l, hl, _⟩ := ho.2.2 v (by rw [hs]; exact ht.relaxed hv 0)
        have := ho.1 l hl
        rw [ha] at this; cases this
      · rename_i hz
        obtain ⟨h2, h3, h4⟩ := hn hz
        split
        · rename_i he
          rw [he] at h3
          exact ⟨_, rfl, h3.opt⟩
        · split
          · rename_i hm
            exact ⟨_, rfl, .inr ⟨_, hm⟩⟩
          · have hlu := h3.lower u h3.holds
            rw [h3.cost] at hlu
            obtain ⟨lb', e1, e2, e3⟩ := h2.unsat hw hp ho.1 ho.2.2 h3.holds (f := f) (by omega)
            dsimp only
            rw [e1, Option.bind_some]
            exact ih _ _ _ _ _ _ _ _ _ _ (fun e => absurd e hz) fun _ => ⟨e3, ⟨h3.holds, h3.cost, e3.low.lower hw⟩, by omega⟩

end Verif.MaxAlg
