import Verif.MaxSat.Wmsu3
import Verif.MaxSat.TotInc

/-! # WMSU3 for lexicographic weights (alg_wmsu3.go:206-345) -/

namespace Verif.MaxAlg

open Verif.MaxSat (litVal clauseVal costC raise)

/-! ## model -/

/-- the assumptions for the inactive soft clauses of a weight (alg_wmsu3.go:279-284, 320) -/
def Prob.restAt (P : Prob) (w : Nat) (act : Nat → Bool) : List Nat := ((List.range P.soft.length).filter fun i => !act i && decide (P.wt i = w)).map fun i => neg (2 * (P.n + i))

/-- alg_wmsu3.go:227-344, the loop of `iterativeBmo`: `w` is `currentWeight`, `rest` are the weights after it in `orderWeights` (empty for `minWeight`), `first` and `t` are the flag and the
encoder of the weight, `eas` is `encodingAssumptions`, `loc` is `localCost` -/
def wmsu3Bmo (P : Prob) (O : Orc) (H : Nat → Bool) :
    Nat → Nat → Nat → List Nat → Bool → Tot → Sol → List Nat → (Nat → Bool) → List Nat → Nat → Nat → Nat → Nat → (Nat → Bool) → Option Res
  | 0, _, _, _, _, _, _, _, _, _, _, _, _, _, _ => none
  | f + 1, k, w, rest, first, t, s, as, act, eas, loc, nb, lb, ub, u => match O k s as with
    | .cancel => some .cancel
    | .sat v =>
      let better := decide (costC v P.soft < ub ∨ nb = 0)
      let ub := if better then costC v P.soft else ub
      let u := if better then v else u
      if nb = 0 then
        if ub = 0 then some (.opt ub u)
        else if H k = false then some .cancel
        else wmsu3Bmo P O H f (k + 1) w rest first t s (as ++ P.restW w fun _ => false) act eas loc (nb + 1) lb ub u
      else if w = 1 ∨ rest = [] then some (.opt ub u)
      else if H k = false then some .cancel
      else match rest with
        | [] => none
        | w' :: rest' =>
          let s := (s.addAll (eas.map fun a => [a])).addAll ((P.restAt w act).map fun a => [a])
          wmsu3Bmo P O H f (k + 1) w' rest' true { inc := true } s (P.restAt w' fun _ => false) (fun _ => false) [] 0 (nb + 1) lb ub u
    | .unsat core => if nb = 0 then some .unsat
        else if lb + w = ub then some (.opt ub u)
        else if H k = false then some .cancel
        else
          let r := P.newW act core
          let L := P.cur r.1
          (if first then
              if loc + 1 ≠ L.length then ((t.build s L (loc + 1)).1.incUpdate (t.build s L (loc + 1)).2 [] (loc + 1)).map fun e => (false, e) else some (true, t, s, eas)
            else (t.incUpdate s (r.2.map (·.1)) (loc + 1)).map fun e => (false, e)).bind fun e =>
            wmsu3Bmo P O H f (k + 1) w rest e.1 e.2.1 e.2.2.1 (P.restAt w r.1 ++ e.2.2.2) r.1 e.2.2.2 (loc + 1) nb (lb + w) ub u

/-- alg_wmsu3.go:34 `search`; `none` also for the panic on unweighted problems -/
def wmsu3 (inc bmoMode : Bool) (P : Prob) (O : Orc) (H : Nat → Bool) (f : Nat) : Option Res :=
  if curWeight (P.soft.map (·.2)) = 1 then none
  else
    let bmo := bmoMode && isBmo (P.soft.map (·.2))
    let cw := if bmo then curWeight (P.soft.map (·.2)) else 1
    let ub := (P.soft.map (·.2)).sum
    if inc = false then wmsu3None P O H cw f 0 (P.relaxed 0) [] (fun _ => false) 0 0 ub fun _ => false
    else if bmo then match orderWeights (P.soft.map (·.2)) with
      | [] => none
      | w :: rest => wmsu3Bmo P O H f 0 w rest true { inc := true } (P.relaxed 0) [] (fun _ => false) [] 0 0 0 ub fun _ => false
    else wmsu3Iter P O H f 0 {} (P.relaxed 0) [] (fun _ => false) [] 0 0 ub fun _ => false

/-! ## proofs -/

theorem Prob.objAt_eq (P : Prob) (w : Nat) : P.objAt w = P.cur fun i => decide (P.wt i = w) := by
  unfold Prob.objAt Prob.cur
  rw [P.objW_eq, List.filter_map, List.map_map]
  rfl

theorem Prob.curW_fst (P : Prob) (act : Nat → Bool) : (P.curW act).map (·.1) = P.cur act := by
  unfold Prob.curW Prob.cur
  rw [List.map_map]; rfl

/-- literals outside of the second set are false -/
theorem Prob.cur_le_of {P : Prob} {a b : Nat → Bool} {u : Nat → Bool} (h : ∀ i < P.soft.length, b i = true → a i = false → litVal u (2 * (P.n + i)) = false) : cnt u (P.cur b) ≤ cnt u (P.cur a) := by
  rw [P.cnt_cur, P.cnt_cur]
  refine List.countP_mono_left fun i hi hv => ?_
  rw [Bool.and_eq_true] at hv ⊢
  refine ⟨?_, hv.2⟩
  cases e : a i with
  | true => rfl
  | false =>
    have := h i (List.mem_range.1 hi) hv.1 e
    rw [hv.2] at this; cases this

theorem Lex.isLeft {P : Prob} {w : Nat} {rest : List Nat} {Fs : List (List Nat × Nat)} {lb : Nat} (h : Lex P w rest Fs lb) {v : Nat → Bool} (hv : P.Holds v) (ht : P.Tight v)
    (hF : ∀ F ∈ Fs, cnt v F.1 ≤ F.2) : Left P w Fs lb v := by
  refine ⟨?_, hF⟩
  have a := h.snd _ hF
  rcases h.dom _ hv ht with hd | hd
  · exact hd.1
  · have b := (ht.parts w).2
    have c := cnt_mul_le v w (P.objAt w)
    omega

/-- the solver at the start of a level -/
structure Base (P : Prob) (Fs : List (List Nat × Nat)) (s0 : Sol) : Prop where
  ext : Ext (P.relaxed 0) s0
  wf : s0.WF
  sound : ∀ u, s0.Holds u → ∀ F ∈ Fs, cnt u F.1 ≤ F.2
  complete : ∀ v, P.Holds v → P.Tight v → (∀ F ∈ Fs, cnt v F.1 ≤ F.2) → ∃ v' : Nat → Bool, (∀ x < (P.relaxed 0).n, v' x = v x) ∧ s0.Holds v'

structure WBmo (P : Prob) (f w : Nat) (rest : List Nat) (first : Bool) (t : Tot) (s : Sol) (as : List Nat) (act : Nat → Bool) (eas : List Nat) (loc lb ub : Nat) (u : Nat → Bool)
    (Fs : List (List Nat × Nat)) (lb0 : Nat) (s0 : Sol) : Prop where
  lex : Lex P w rest Fs lb0
  base : Base P Fs s0
  tot : TotI s0 s t (P.cur act) loc eas
  flag : first = !t.has
  asm : as = P.restAt w act ++ eas
  lev : ∀ i < P.soft.length, act i = true → P.wt i = w
  low : ∀ v, P.Holds v → P.Tight v → Left P w Fs lb0 v → loc ≤ cnt v (P.cur act)
  val : lb = lb0 + w * loc
  wit : ∃ v, P.Holds v ∧ P.Tight v ∧ Left P w Fs lb0 v
  best : P.Holds u ∧ costC u P.soft = ub
  fuel : (P.objAt w).length + 1 + (rest.map fun y => (P.objAt y).length + 2).sum ≤ f + loc

theorem cur_objAt {P : Prob} {w : Nat} {act : Nat → Bool} (h : ∀ i < P.soft.length, act i = true → P.wt i = w) (u : Nat → Bool) : cnt u (P.cur act) ≤ cnt u (P.objAt w) := by
  rw [P.objAt_eq, P.cnt_cur, P.cnt_cur]
  refine List.countP_mono_left fun i hi hv => ?_
  rw [Bool.and_eq_true] at hv ⊢
  exact ⟨decide_eq_true (h i (List.mem_range.1 hi) hv.1), hv.2⟩

theorem objAt_cur {P : Prob} {w : Nat} {act : Nat → Bool} {u : Nat → Bool} (h : ∀ a ∈ P.restAt w act, litVal u a = true) : cnt u (P.objAt w) ≤ cnt u (P.cur act) := by
  rw [P.objAt_eq]
  refine Prob.cur_le_of fun i hi hw ha => ?_
  have := h (neg (2 * (P.n + i))) (List.mem_map.2 ⟨i, List.mem_filter.2 ⟨List.mem_range.2 hi, by rw [ha, hw]; rfl⟩, rfl⟩)
  rw [litVal_neg] at this
  simpa using this

/-- no assignment costs less than what the level has proved -/
theorem Lex.lower {P : Prob} (hw : P.WF) {w : Nat} {rest : List Nat} {Fs : List (List Nat × Nat)} {lb0 loc : Nat} (h : Lex P w rest Fs lb0) {act : Nat → Bool}
    (ha : ∀ i < P.soft.length, act i = true → P.wt i = w) (hl : ∀ v, P.Holds v → P.Tight v → Left P w Fs lb0 v → loc ≤ cnt v (P.cur act)) (hn : loc ≤ (P.objAt w).length) :
    ∀ v, P.Holds v → lb0 + w * loc ≤ costC v P.soft := by
  intro v hv
  obtain ⟨v1, _, g2, g3, g4⟩ := Prob.exists_tight hw hv
  rw [← g4]
  rcases h.dom v1 g2 g3 with hd | hd
  · have h1 : w * loc ≤ w * cnt v1 (P.objAt w) := Nat.mul_le_mul_left _ (Nat.le_trans (hl v1 g2 g3 hd) (cur_objAt ha v1))
    have h2 := (g3.parts w).1
    have h3 := hd.1
    omega
  · have h1 : w * loc ≤ w * (P.objAt w).length := Nat.mul_le_mul_left _ hn
    omega

/-- a model under the assumptions of a level -/
theorem WBmo.model {P : Prob} (hw : P.WF) {f w : Nat} {rest : List Nat} {first : Bool} {t : Tot} {s : Sol} {as : List Nat} {act : Nat → Bool} {eas : List Nat} {loc lb ub : Nat} {u : Nat → Bool}
    {Fs : List (List Nat × Nat)} {lb0 : Nat} {s0 : Sol} (h : WBmo P f w rest first t s as act eas loc lb ub u Fs lb0 s0) {m : Nat → Bool} (hm : s.Holds m) (ha : ∀ a ∈ as, litVal m a = true) :
    P.Holds m ∧ (∃ v, P.Holds v ∧ P.Tight v ∧ Left P w Fs lb0 v ∧ cnt v (P.objAt w) = loc) ∧ costC m P.soft ≤ lb + P.loT w := by
  have hs0 := h.tot.ext.holds hm
  have hr := h.base.ext.holds hs0
  have hF := h.base.sound m hs0
  have hr' : (P.relaxed w).Holds m := by
    intro c hc
    rcases List.mem_append.1 hc with hc | hc
    · exact hr c (List.mem_append_left _ hc)
    · obtain ⟨ci, hci, rfl⟩ := List.mem_map.1 hc
      exact hr _ (List.mem_append_right _ (List.mem_map.2 ⟨ci, List.mem_filter.2 ⟨(List.mem_filter.1 hci).1, by simp⟩, rfl⟩))
  obtain ⟨m1, m2, m3, m4⟩ := h.lex.model hw hr' hF
  have c1 : cnt m (P.objAt w) ≤ loc := Nat.le_trans (objAt_cur (act := act) fun a h' => ha a (by rw [h.asm]; exact List.mem_append_left _ h'))
    (h.tot.sound hm fun a h' => ha a (by rw [h.asm]; exact List.mem_append_right _ h'))
  have c2 : cnt (P.tighten m) (P.objAt w) ≤ loc := Nat.le_trans (Prob.tighten_le hw hr' (Nat.le_refl w)) c1
  have c3 := h.low _ m1 m2 m3
  have c4 := cur_objAt h.lev (P.tighten m)
  have c5 : cnt (P.tighten m) (P.objAt w) = loc := by omega
  refine ⟨(Prob.relaxed_sound hr).1, ⟨_, m1, m2, m3, c5⟩, ?_⟩
  have c6 := (m2.parts w).2
  rw [m4, m3.1, c5] at c6
  rw [h.val]; exact c6

/-- the next level -/
theorem WBmo.base_next {P : Prob} {f w : Nat} {rest : List Nat} {first : Bool} {t : Tot} {s : Sol} {as : List Nat} {act : Nat → Bool} {eas : List Nat} {loc lb ub : Nat} {u : Nat → Bool}
    {Fs : List (List Nat × Nat)} {lb0 : Nat} {s0 : Sol} (h : WBmo P f w rest first t s as act eas loc lb ub u Fs lb0 s0) :
    Base P (Fs ++ [(P.objAt w, loc)]) ((s.addAll (eas.map fun a => [a])).addAll ((P.restAt w act).map fun a => [a])) := by
  have hcl : ∀ (u : Nat → Bool) (ls : List Nat), (∀ c ∈ ls.map fun a => [a], clauseVal u c = true) ↔ ∀ a ∈ ls, litVal u a = true := fun u ls => by
    simp [clauseVal]
  have hrest : ∀ a ∈ P.restAt w act, a / 2 < (P.relaxed 0).n := fun a ha => by
    obtain ⟨i, hi, rfl⟩ := List.mem_map.1 ha
    have := List.mem_range.1 (List.mem_filter.1 hi).1
    rw [neg_div]
    show 2 * (P.n + i) / 2 < P.n + P.soft.length
    omega
  have hn := h.base.ext.n
  have hn' := h.tot.ext.n
  refine ⟨?_, ?_, fun u hu F hF => ?_, fun v hv ht hF => ?_⟩
  · have := h.base.ext.trans h.tot.ext
    exact ⟨this.n, fun c hc => List.mem_append_right _ (List.mem_append_right _ (this.cs c hc))⟩
  · intro c hc l hl
    show l / 2 < s.n
    rcases List.mem_append.1 hc with hc | hc
    · obtain ⟨a, ha, rfl⟩ := List.mem_map.1 hc
      rw [List.mem_singleton.1 hl]
      have := hrest a ha; omega
    · rcases List.mem_append.1 hc with hc | hc
      · obtain ⟨a, ha, rfl⟩ := List.mem_map.1 hc
        rw [List.mem_singleton.1 hl]
        exact (h.tot.asm_lt a ha).2
      · exact h.tot.wf h.base.wf c hc l hl
  · rw [Sol.holds_addAll, Sol.holds_addAll, hcl, hcl] at hu
    obtain ⟨h1, h2, h3⟩ := hu
    rcases List.mem_append.1 hF with hF | hF
    · exact h.base.sound u (h.tot.ext.holds h3) F hF
    · rw [List.mem_singleton.1 hF]
      exact Nat.le_trans (objAt_cur h1) (h.tot.sound h3 h2)
  · have hF1 : ∀ F ∈ Fs, cnt v F.1 ≤ F.2 := fun F hm => hF F (List.mem_append_left _ hm)
    have hF2 : cnt v (P.objAt w) ≤ loc := hF (P.objAt w, loc) (List.mem_append_right _ (List.mem_singleton.2 rfl))
    have c1 := h.low v hv ht (h.lex.isLeft hv ht hF1)
    have c2 := cur_objAt h.lev v
    obtain ⟨v0, g1, g2⟩ := h.base.complete v hv ht hF1
    have c3 : cnt v0 (P.cur act) ≤ loc := by
      rw [cnt_congr fun l hl => g1 _ (P.cur_below act 0 l hl)]; omega
    obtain ⟨v', f1, f2, f3⟩ := h.tot.complete ((P.cur_below act 0).mono hn) g2 c3
    have ag : ∀ x < (P.relaxed 0).n, v' x = v x := fun x hx => by rw [f1 x (by omega), g1 x hx]
    refine ⟨v', ag, ?_⟩
    rw [Sol.holds_addAll, Sol.holds_addAll, hcl, hcl]
    refine ⟨fun a ha => ?_, f3, f2⟩
    rw [litVal_congr (w := v) (ag _ (hrest a ha))]
    obtain ⟨i, hi, rfl⟩ := List.mem_map.1 ha
    obtain ⟨hi1, hi2⟩ := List.mem_filter.1 hi
    rw [Bool.and_eq_true, Bool.not_eq_true'] at hi2
    cases e : litVal v (2 * (P.n + i)) with
    | false => rw [litVal_neg, e]; rfl
    | true =>
      exfalso
      have : cnt v (P.cur act) + 1 ≤ cnt v (P.cur fun j => act j || decide (j = i)) := Prob.cur_lt (fun j hj => by rw [hj]; rfl) (List.mem_range.1 hi1) hi2.1 (by simp) e
      have c4 : cnt v (P.cur fun j => act j || decide (j = i)) ≤ cnt v (P.objAt w) := cur_objAt (fun j hj hd => by
        rw [Bool.or_eq_true] at hd
        rcases hd with hd | hd
        · exact h.lev j hj hd
        · rw [of_decide_eq_true hd]; exact of_decide_eq_true hi2.2) v
      omega

theorem Prob.newW_act {P : Prob} : ∀ {core : List Nat} {act : Nat → Bool} {i : Nat}, (P.newW act core).1 i = true → act i = true ∨ ∃ l ∈ core, P.coreIdx l = some i
  | [], act, i, h => .inl h
  | l :: ls, act, i, h => by
    rw [Prob.newW] at h
    cases e : P.coreIdx l with
    | none =>
      rw [e] at h
      rcases Prob.newW_act h with h | ⟨l', h1, h2⟩
      · exact .inl h
      · exact .inr ⟨l', List.mem_cons_of_mem _ h1, h2⟩
    | some j =>
      rw [e] at h
      dsimp only at h
      by_cases ha : act j = true
      · rw [if_pos ha] at h
        rcases Prob.newW_act h with h | ⟨l', h1, h2⟩
        · exact .inl h
        · exact .inr ⟨l', List.mem_cons_of_mem _ h1, h2⟩
      · rw [if_neg ha] at h
        rcases Prob.newW_act h with h | ⟨l', h1, h2⟩
        · rw [Bool.or_eq_true] at h
          rcases h with h | h
          · exact .inl h
          · exact .inr ⟨l, List.mem_cons_self, by rw [of_decide_eq_true h]; exact e⟩
        · exact .inr ⟨l', List.mem_cons_of_mem _ h1, h2⟩

theorem mem_restAt {P : Prob} {w : Nat} {act : Nat → Bool} {l : Nat} (h : neg l ∈ P.restAt w act) : ∃ i < P.soft.length, l = 2 * (P.n + i) ∧ act i = false ∧ P.wt i = w := by
  obtain ⟨i, hi, he⟩ := List.mem_map.1 h
  obtain ⟨hi1, hi2⟩ := List.mem_filter.1 hi
  rw [Bool.and_eq_true, Bool.not_eq_true'] at hi2
  exact ⟨i, List.mem_range.1 hi1, by rw [← neg_neg l, ← he, neg_neg], hi2.1, of_decide_eq_true hi2.2⟩

/-- a core at a level -/
theorem WBmo.core {P : Prob} {f w : Nat} {rest : List Nat} {first : Bool} {t : Tot} {s : Sol} {as : List Nat} {act : Nat → Bool} {eas : List Nat} {loc lb ub : Nat} {u : Nat → Bool}
    {Fs : List (List Nat × Nat)} {lb0 : Nat} {s0 : Sol} (h : WBmo P f w rest first t s as act eas loc lb ub u Fs lb0 s0) {core : List Nat} (hc : ∀ l ∈ core, neg l ∈ as)
    (hu : ∀ u, s.Holds u → ∃ l ∈ core, litVal u l = true) :
    (∀ i < P.soft.length, (P.newW act core).1 i = true → P.wt i = w) ∧ (∀ v, P.Holds v → P.Tight v → Left P w Fs lb0 v → loc + 1 ≤ cnt v (P.cur (P.newW act core).1)) ∧
      loc + 1 ≤ (P.cur (P.newW act core).1).length ∧ loc + 1 ≤ (P.objAt w).length := by
  obtain ⟨n1, n2, n3, n4⟩ := P.newW_spec core act
  have hn := h.base.ext.n
  have A : ∀ i < P.soft.length, (P.newW act core).1 i = true → P.wt i = w := fun i hi ha => by
    rcases Prob.newW_act ha with ha | ⟨l, hl, hi'⟩
    · exact h.lev i hi ha
    · have hla := hc l hl
      rw [h.asm] at hla
      rcases List.mem_append.1 hla with hla | hla
      · obtain ⟨j, hj, e1, _, e2⟩ := mem_restAt hla
        rw [e1, Prob.coreIdx_lit hj] at hi'
        injection hi' with hi'
        rw [← hi']; exact e2
      · have h1 := (h.tot.asm_lt _ hla).1
        rw [neg_div, (Prob.coreIdx_some hi').2] at h1
        have hn : P.n + P.soft.length ≤ s0.n := hn
        omega
  have B : ∀ v, P.Holds v → P.Tight v → Left P w Fs lb0 v → loc + 1 ≤ cnt v (P.cur (P.newW act core).1) := fun v hv ht hL => by
    have h1 := h.low v hv ht hL
    by_cases hle : cnt v (P.cur act) ≤ loc
    · obtain ⟨v0, g1, g2⟩ := h.base.complete v hv ht hL.2
      obtain ⟨v', f1, f2, f3⟩ := h.tot.complete ((P.cur_below act 0).mono hn) g2 (by rw [cnt_congr fun l hl => g1 _ (P.cur_below act 0 l hl)]; exact hle)
      obtain ⟨l, hl, hlv⟩ := hu v' f2
      have hla := hc l hl
      rw [h.asm] at hla
      rcases List.mem_append.1 hla with hla | hla
      · obtain ⟨i, hi, e1, e2, e3⟩ := mem_restAt hla
        have hlt : 2 * (P.n + i) / 2 < (P.relaxed 0).n := by
          show 2 * (P.n + i) / 2 < P.n + P.soft.length
          omega
        have hvi : litVal v (2 * (P.n + i)) = true := by
          rw [← hlv, e1]
          exact (litVal_congr (by rw [f1 _ (by omega), g1 _ hlt])).symm
        have := Prob.cur_lt n2 hi e2 (n3 l hl i (by rw [e1]; exact Prob.coreIdx_lit hi)) hvi
        omega
      · have := f3 _ hla
        rw [litVal_neg, hlv] at this; cases this
    · have := Prob.cur_mono (P := P) n2 v
      omega
  obtain ⟨v, hv, ht, hL⟩ := h.wit
  have hb := B v hv ht hL
  exact ⟨A, B, Nat.le_trans hb (cnt_le _ _), Nat.le_trans hb (Nat.le_trans (cur_objAt A v) (cnt_le _ _))⟩

theorem wmsu3Bmo_right {P : Prob} (hw : P.WF) {O : Orc} (hO : O.Ok) (H : Nat → Bool) :
    ∀ (f k w : Nat) (rest : List Nat) (first : Bool) (t : Tot) (s : Sol) (as : List Nat) (act : Nat → Bool) (eas : List Nat) (loc nb lb ub : Nat) (u : Nat → Bool),
    (nb = 0 → s = P.relaxed 0 ∧ as = [] ∧ ∀ m, P.Holds m → WBmo P (f - 1) w rest first t s (P.restW w fun _ => false) act eas loc lb (costC m P.soft) m [] 0 s) → (nb = 0 → 1 ≤ f) →
    (nb ≠ 0 → ∃ Fs lb0 s0, WBmo P f w rest first t s as act eas loc lb ub u Fs lb0 s0) →
    ∃ r, wmsu3Bmo P O H f k w rest first t s as act eas loc nb lb ub u = some r ∧ Right P O H r := by
  intro f
  induction f with
  | zero =>
    intro k w rest first t s as act eas loc nb lb ub u h0 hf hn
    by_cases hz : nb = 0
    · have := hf hz; omega
    · obtain ⟨Fs, lb0, s0, h⟩ := hn hz
      obtain ⟨v, hv, ht, hL⟩ := h.wit
      have h1 := h.fuel
      have h2 := Nat.le_trans (h.low v hv ht hL) (Nat.le_trans (cur_objAt h.lev v) (cnt_le _ _))
      omega
  | succ f ih =>
    intro k w rest first t s as act eas loc nb lb ub u h0 hf hn
    unfold wmsu3Bmo
    dsimp only
    have ho := hO k s as
    split
    · rename_i hm
      exact ⟨_, rfl, .inl ⟨_, _, _, hm⟩⟩
    · rename_i m hm
      rw [hm] at ho
      by_cases hz : nb = 0
      · obtain ⟨hs, ha, h1⟩ := h0 hz
        have hh : P.Holds m := by rw [hs] at ho; exact (Prob.relaxed_sound ho.1).1
        rw [if_pos hz, decide_eq_true (.inr hz), if_pos rfl, if_pos rfl]
        split
        · rename_i hc
          exact ⟨_, rfl, hh, rfl, fun v _ => by rw [hc]; exact Nat.zero_le _⟩
        · split
          · rename_i hm
            exact ⟨_, rfl, .inr ⟨_, hm⟩⟩
          · rw [ha, List.nil_append]
            exact ih _ _ _ _ _ _ _ _ _ _ _ _ _ _ (fun e => by omega) (fun e => by omega) fun _ => ⟨_, _, _, h1 m hh⟩
      · obtain ⟨Fs, lb0, s0, h⟩ := hn hz
        rw [if_neg hz]
        obtain ⟨m1, ⟨v, v1, v2, v3, v4⟩, m3⟩ := h.model hw ho.1 ho.2
        have hloc : loc ≤ (P.objAt w).length := by rw [← v4]; exact cnt_le _ _
        have hlow := h.lex.lower hw h.lev h.low hloc
        have hbest : P.Holds (if decide (costC m P.soft < ub ∨ nb = 0) = true then m else u) ∧
            costC (if decide (costC m P.soft < ub ∨ nb = 0) = true then m else u) P.soft = (if decide (costC m P.soft < ub ∨ nb = 0) = true then costC m P.soft else ub) := by
          split
          · exact ⟨m1, rfl⟩
          · exact h.best
        split
        · rename_i hw1
          have hrest : rest = [] := by
            rcases hw1 with e | e
            · cases rest with
              | nil => rfl
              | cons w' rest =>
                have a := h.lex.gap.1
                have b := h.lex.pos w' (List.mem_cons_of_mem _ List.mem_cons_self)
                omega
            · exact e
          subst hrest
          rw [h.lex.last, h.val] at m3
          refine ⟨_, rfl, hbest.1, hbest.2, fun v' hv' => Nat.le_trans ?_ (hlow v' hv')⟩
          by_cases hd : costC m P.soft < ub
          · rw [decide_eq_true (.inl hd), if_pos rfl]; omega
          · rw [decide_eq_false (by omega), if_neg (by simp)]; omega
        · rename_i hw1
          split
          · rename_i hm
            exact ⟨_, rfl, .inr ⟨_, hm⟩⟩
          · cases rest with
            | nil => exact absurd (.inr rfl) hw1
            | cons w' rest =>
              refine ih _ _ _ _ _ _ _ _ _ _ _ _ _ _ (fun e => by omega) (fun e => by omega) fun _ =>
                ⟨Fs ++ [(P.objAt w, loc)], lb, (s.addAll (eas.map fun a => [a])).addAll ((P.restAt w act).map fun a => [a]), ?_⟩
              have hlx := h.lex.next (q := loc) hloc fun v hv ht hL => Nat.le_trans (h.low v hv ht hL) (cur_objAt (w := w) h.lev v)
              rw [← h.val] at hlx
              have hcur : P.cur (fun _ => false) = [] := by unfold Prob.cur; simp
              refine ⟨hlx, h.base_next, by rw [hcur]; exact TotI.fresh0 rfl rfl rfl rfl, rfl, by rw [List.append_nil], fun i _ e => (nomatch e), fun _ _ _ _ => Nat.zero_le _, rfl,
                ⟨v, v1, v2, by rw [h.val]; exact h.lex.left v3 v4⟩, hbest, ?_⟩
              have := h.fuel
              rw [List.map_cons, List.sum_cons] at this
              omega
    · rename_i core hm
      rw [hm] at ho
      split
      · rename_i hz
        obtain ⟨hs, ha, _⟩ := h0 hz
        refine ⟨_, rfl, fun u hu => ?_⟩
        obtain ⟨v, _, hv, ht, _⟩ := Prob.exists_tight hw hu
        obtain ⟨l, hl, _⟩ := ho.2.2 v (by rw [hs]; exact ht.relaxed hv 0)
        have := ho.1 l hl
        rw [ha] at this; cases this
      · rename_i hz
        obtain ⟨Fs, lb0, s0, h⟩ := hn hz
        obtain ⟨c1, c2, c3, c4⟩ := h.core ho.1 ho.2.2
        have hlow := h.lex.lower hw c1 c2 c4
        rw [Nat.mul_add, Nat.mul_one, ← Nat.add_assoc, ← h.val] at hlow
        split
        · rename_i he
          rw [he] at hlow
          exact ⟨_, rfl, h.best.1, h.best.2, hlow⟩
        · split
          · rename_i hm
            exact ⟨_, rfl, .inr ⟨_, hm⟩⟩
          · obtain ⟨n1, n2, n3, n4⟩ := P.newW_spec core act
            have hp := n1.map (·.1)
            rw [List.map_append, P.curW_fst, P.curW_fst] at hp
            obtain ⟨t', s', as', e1, e2⟩ := h.tot.next h.base.wf hp ((P.cur_below _ 0).mono h.base.ext.n) c3
            have hfl : first = true ↔ t.has = false := by rw [h.flag]; cases t.has <;> simp
            rw [show (if first = true then
                if loc + 1 ≠ (P.cur (P.newW act core).1).length then
                  ((t.build s (P.cur (P.newW act core).1) (loc + 1)).1.incUpdate (t.build s (P.cur (P.newW act core).1) (loc + 1)).2 [] (loc + 1)).map fun e => (false, e) else some (true, t, s, eas)
              else (t.incUpdate s ((P.newW act core).2.map (·.1)) (loc + 1)).map fun e => (false, e)) = some (!t'.has, t', s', as') from by rw [← e1]; exact if_congr hfl rfl rfl, Option.bind_some]
            exact ih _ _ _ _ _ _ _ _ _ _ _ _ _ _ (fun e => absurd e hz) (fun e => absurd e hz) fun _ => ⟨Fs, lb0, s0, h.lex, h.base, e2, rfl, rfl, c1, c2,
              by rw [h.val, Nat.mul_add, Nat.mul_one, Nat.add_assoc], h.wit, h.best, by have := h.fuel; omega⟩

/-- passes of the incremental search -/
def Prob.wmFuel (P : Prob) : Nat := P.bmoFuel + 2 * (P.soft.map (·.2)).sum + 4

/-- `wmsu3` with the incremental strategy returns the optimum -/
theorem wmsu3_right {P : Prob} (hw : P.WF) (hp : P.Pos) (h1 : ¬ P.Unit) {O : Orc} (hO : O.Ok) (H : Nat → Bool) (bmoMode : Bool) {f : Nat} (hf : P.wmFuel ≤ f) :
    ∃ r, wmsu3 true bmoMode P O H f = some r ∧ Right P O H r := by
  unfold Prob.wmFuel at hf
  unfold wmsu3
  have hcur : curWeight (P.soft.map (·.2)) ≠ 1 := fun hc => h1 fun c hc' => by
    have := le_curWeight (List.mem_map.2 ⟨c, hc', rfl⟩ : c.2 ∈ P.soft.map (·.2))
    have := hp c hc'
    omega
  rw [if_neg hcur]
  dsimp only
  rw [if_neg (by simp)]
  by_cases hb : (bmoMode && isBmo (P.soft.map (·.2))) = true
  · rw [if_pos hb]
    have hb' := (Bool.and_eq_true _ _).mp hb
    have hs := order_sorted (P.soft.map (·.2))
    cases ho : orderWeights (P.soft.map (·.2)) with
    | nil =>
      exfalso
      refine h1 fun c hc => ?_
      have : c.2 ∈ orderWeights (P.soft.map (·.2)) := mem_order.2 (List.mem_map.2 ⟨c, hc, rfl⟩)
      rw [ho] at this; cases this
    | cons w rest =>
      dsimp only
      obtain ⟨t, s, _, e⟩ := bmoInv_start hw hp hb'.2 ho (f := P.bmoFuel) (Nat.le_refl _)
      have hcur : P.cur (fun _ => false) = [] := by unfold Prob.cur; simp
      rw [ho] at hs
      have htop : ∀ i < P.soft.length, P.wt i ≤ w := fun i hi => by
        obtain ⟨c, hc, hc2⟩ := Prob.wt_mem hi
        have : c.2 ∈ orderWeights (P.soft.map (·.2)) := mem_order.2 (List.mem_map.2 ⟨c, hc, rfl⟩)
        rw [ho] at this
        rw [hc2]
        rcases List.mem_cons.1 this with e | e
        · omega
        · have := (List.pairwise_cons.1 hs).1 _ e; omega
      have hrest : P.restW w (fun _ => false) = P.restAt w (fun _ => false) := by
        unfold Prob.restW Prob.restAt
        congr 1
        refine List.filter_congr fun i hi => ?_
        have := htop i (List.mem_range.1 hi)
        congr 1
        exact decide_eq_decide.2 (by omega)
      refine wmsu3Bmo_right hw hO H f 0 w rest true { inc := true } (P.relaxed 0) [] _ [] 0 0 0 _ _ (fun _ => ⟨rfl, rfl, fun m hm => ?_⟩) (fun _ => by omega) fun e => absurd rfl e
      refine ⟨e.lex, ⟨Ext.refl _, Prob.relaxed_wf hw 0, fun u _ F hF => (nomatch hF), fun v hv ht _ => ⟨v, fun _ _ => rfl, ht.relaxed hv 0⟩⟩, by rw [hcur]; exact TotI.fresh0 rfl rfl rfl rfl, rfl,
        by rw [hrest, List.append_nil], fun i _ e => (nomatch e), fun _ _ _ _ => Nat.zero_le _, rfl, ?_, ⟨hm, rfl⟩, ?_⟩
      · obtain ⟨v, _, hv, ht, _⟩ := Prob.exists_tight hw hm
        exact ⟨v, hv, ht, e.lex.isLeft hv ht fun F hF => nomatch hF⟩
      · unfold Prob.bmoFuel at hf
        rw [ho, List.map_cons, List.sum_cons] at hf
        omega
  · rw [if_neg hb]
    exact wmsu3Iter_right hw hp hO H f 0 {} (P.relaxed 0) [] _ [] 0 0 _ _ (fun _ => ⟨rfl, rfl, rfl, rfl, fun _ => rfl, rfl, rfl, by omega⟩) fun e => absurd rfl e

/-- `none`: a reported result is safe -/
theorem wmsu3None_safe {P : Prob} (hw : P.WF) (hp : P.Pos) {O : Orc} (hO : O.Ok) (H : Nat → Bool) (cw : Nat) :
    ∀ (f k : Nat) (s : Sol) (as : List Nat) (act : Nat → Bool) (nb lb ub : Nat) (u : Nat → Bool) (r : Res), Ext (P.relaxed 0) s →
    (nb = 0 → s = P.relaxed 0 ∧ as = []) → (nb ≠ 0 → P.Holds u ∧ costC u P.soft = ub) →
    wmsu3None P O H cw f k s as act nb lb ub u = some r → Safe P O H r := by
  intro f
  induction f with
  | zero => intro k s as act nb lb ub u r _ _ _ h; cases h
  | succ f ih =>
    intro k s as act nb lb ub u r hx h0 hn h
    rw [wmsu3None] at h
    have ho := hO k s as
    split at h
    · rename_i hm
      injection h with h
      subst h
      exact .inl ⟨_, _, _, hm⟩
    · rename_i m hm
      rw [hm] at ho
      dsimp only at h
      have hh := (Prob.relaxed_sound (hx.holds ho.1)).1
      have hbest : P.Holds (if decide (costC m P.soft < ub ∨ nb = 0) = true then m else u) ∧
          costC (if decide (costC m P.soft < ub ∨ nb = 0) = true then m else u) P.soft = (if decide (costC m P.soft < ub ∨ nb = 0) = true then costC m P.soft else ub) := by
        split
        · exact ⟨hh, rfl⟩
        · rename_i hd
          exact hn fun e => hd (decide_eq_true (.inr e))
      generalize (if decide (costC m P.soft < ub ∨ nb = 0) = true then m else u) = u' at h hbest
      generalize (if decide (costC m P.soft < ub ∨ nb = 0) = true then costC m P.soft else ub) = ub' at h hbest
      split at h
      · injection h with h
        subst h
        exact hbest
      · split at h
        · rename_i hm
          injection h with h
          subst h
          exact .inr ⟨_, hm⟩
        · exact ih _ _ _ _ _ _ _ _ _ hx (fun e => by omega) (fun _ => hbest) h
    · rename_i core hm
      rw [hm] at ho
      split at h
      · rename_i hz
        injection h with h
        subst h
        obtain ⟨hs, ha⟩ := h0 hz
        intro u hu
        obtain ⟨v, _, hv, ht, _⟩ := Prob.exists_tight hw hu
        obtain ⟨l, hl, _⟩ := ho.2.2 v (by rw [hs]; exact ht.relaxed hv 0)
        have := ho.1 l hl
        rw [ha] at this; cases this
      · rename_i hz
        split at h
        · injection h with h
          subst h
          exact hn hz
        · split at h
          · rename_i hm
            injection h with h
            subst h
            exact .inr ⟨_, hm⟩
          · dsimp only at h
            rw [Option.bind_eq_some_iff] at h
            obtain ⟨lb', _, h⟩ := h
            refine ih _ _ _ _ _ _ _ _ _ ?_ (fun e => absurd e hz) hn h
            obtain ⟨sw, s', ys, e1, e2, _⟩ := swc_encode_spec (sw := {}) (s := P.relaxed 0) (xs := P.curW fun i => act i || core.any fun l => decide ((P.coreIdx l).getD 0 = i)) (rhs := lb')
              (Prob.relaxed_wf hw 0)
              (fun x hx => by
                obtain ⟨i, hi, _, rfl⟩ := Prob.mem_curW.1 hx
                show 2 * (P.n + i) / 2 < P.n + P.soft.length
                omega)
              (fun x hx => by
                obtain ⟨i, hi, _, rfl⟩ := Prob.mem_curW.1 hx
                obtain ⟨c, hc, e⟩ := Prob.wt_mem hi
                show 0 < P.wt i
                rw [e]; exact hp c hc) rfl
            rw [e1]
            exact e2

end Verif.MaxAlg
