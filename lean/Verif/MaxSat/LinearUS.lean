import Verif.MaxSat.Relax

/-! # LinearUS (alg_linear_us.go) -/

namespace Verif.MaxAlg

open Verif.MaxSat (litVal clauseVal costC)

/-! ## model

`O k` answers the `k`-th call of the SAT solver, `H k` the handler's question after it (new lower or upper bound).  The recursion is the loop; its first argument bounds the number of
passes. -/

/-- alg_linear_us.go:54-86, the loop of `none`; `nb` is `nbSatisfiable`, `u` the saved model.  `computeCostModel` (algorithm.go:170) is `costC`. -/
def usNone (P : Prob) (O : Orc) (H : Nat → Bool) : Nat → Nat → Tot → Sol → Nat → Nat → Nat → (Nat → Bool) → Option Res
  | 0, _, _, _, _, _, _, _ => none
  | f + 1, k, t, s, nb, lb, ub, u => match O k s [] with
    | .cancel => some .cancel
    | .sat u => if nb = 0 then
          if H k = false then some .cancel
          else (t.encode s P.obj 0).bind fun r => usNone P O H f (k + 1) r.1 r.2 1 lb (costC u P.soft) u
        else some (.opt (costC u P.soft) u)
    | .unsat _ => if nb = 0 then some .unsat
        else if lb + 1 = ub then some (.opt ub u)
        else if H k = false then some .cancel
        else (t.encode (P.relaxed 0) P.obj (lb + 1)).bind fun r => usNone P O H f (k + 1) r.1 r.2 nb (lb + 1) ub u

/-- alg_linear_us.go:96-135, the loop of `iterative` -/
def usIter (P : Prob) (O : Orc) (H : Nat → Bool) : Nat → Nat → Tot → Sol → List Nat → Nat → Nat → Nat → (Nat → Bool) → Option Res
  | 0, _, _, _, _, _, _, _, _ => none
  | f + 1, k, t, s, as, nb, lb, ub, u => match O k s as with
    | .cancel => some .cancel
    | .sat u => if nb = 0 then
          if H k = false then some .cancel
          else usIter P O H f (k + 1) t s (as ++ P.obj.map neg) 1 lb (costC u P.soft) u
        else some (.opt (costC u P.soft) u)
    | .unsat _ => if nb = 0 then some .unsat
        else if lb + 1 = ub then some (.opt ub u)
        else if H k = false then some .cancel
        else
          let b := if t.has then (t, s) else t.build s P.obj (lb + 1)
          (b.1.incUpdate b.2 [] (lb + 1)).bind fun r => usIter P O H f (k + 1) r.1 r.2.1 r.2.2 nb (lb + 1) ub u

/-- alg_linear_us.go:31 `search` for unweighted problems -/
def linearUS (inc : Bool) (P : Prob) (O : Orc) (H : Nat → Bool) (fuel : Nat) : Option Res :=
  if inc then usIter P O H fuel 0 { inc := true } (P.relaxed 0) [] 0 0 (P.soft.map (·.2)).sum fun _ => false
  else usNone P O H fuel 0 { inc := false } (P.relaxed 0) 0 0 (P.soft.map (·.2)).sum fun _ => false

/-! ## proofs -/

/-- all soft clauses have weight 1 -/
def Prob.Unit (P : Prob) : Prop := ∀ c ∈ P.soft, c.2 = 1

theorem Prob.Unit.objW {P : Prob} (h : P.Unit) : ∀ x ∈ P.objW, x.2 = 1 := by
  intro x hx
  obtain ⟨ci, hci, rfl⟩ := List.mem_map.1 hx
  exact h _ (List.mem_of_getElem? (mem_zipIdx_lt hci).2)

theorem Prob.Unit.cost_le {P : Prob} (h : P.Unit) {u : Nat → Bool} (hu : (P.relaxed 0).Holds u) : costC u P.soft ≤ cnt u P.obj := by
  have := Prob.cost_le (w := 0) (fun _ _ => Nat.zero_le _) hu
  rw [wsum_unit u h.objW] at this; exact this

theorem Prob.Unit.cost_eq {P : Prob} (h : P.Unit) {u : Nat → Bool} (hu : P.Tight u) : costC u P.soft = cnt u P.obj := by
  rw [hu.cost, wsum_unit u h.objW]; rfl

theorem Prob.Unit.cost_le_length {P : Prob} (h : P.Unit) (hw : P.WF) (u : Nat → Bool) : costC u P.soft ≤ P.obj.length := by
  rw [← Prob.cost_congr hw (u := P.tighten u) (w := u) fun _ hx => Prob.tighten_old hx, h.cost_eq (Prob.tighten_tight hw u)]
  exact cnt_le _ _

/-- solver and assumptions describe the assignments of at most the given cost -/
structure AtMost (P : Prob) (s : Sol) (as : List Nat) (b : Nat) : Prop where
  sound : ∀ u, s.Holds u → (∀ a ∈ as, litVal u a = true) → P.Holds u ∧ costC u P.soft ≤ b
  complete : ∀ u, P.Holds u → costC u P.soft ≤ b → ∃ u', s.Holds u' ∧ ∀ a ∈ as, litVal u' a = true

/-- the best model so far -/
structure Best (P : Prob) (lb ub : Nat) (u : Nat → Bool) : Prop where
  holds : P.Holds u
  cost : costC u P.soft = ub
  lower : ∀ v, P.Holds v → lb ≤ costC v P.soft

theorem AtMost.sat {P : Prob} {s : Sol} {as : List Nat} {b ub : Nat} {m u : Nat → Bool} {O : Orc} {H : Nat → Bool} (h : AtMost P s as b) (hb : Best P b ub m) (hu : s.Holds u) (ha : ∀ a ∈ as, litVal u a = true) :
    Right P O H (.opt (costC u P.soft) u) := by
  obtain ⟨h1, h2⟩ := h.sound u hu ha
  exact ⟨h1, rfl, fun v hv => Nat.le_trans h2 (hb.lower v hv)⟩

theorem AtMost.unsat {P : Prob} {s : Sol} {as : List Nat} {b ub : Nat} {m : Nat → Bool} (h : AtMost P s as b) (hb : Best P b ub m) {core : List Nat} (hc : ∀ l ∈ core, neg l ∈ as)
    (hu : ∀ u, s.Holds u → ∃ l ∈ core, litVal u l = true) : Best P (b + 1) ub m := by
  refine ⟨hb.holds, hb.cost, fun v hv => ?_⟩
  refine Classical.byContradiction fun hlt => ?_
  obtain ⟨u', h1, h2⟩ := h.complete v hv (by omega)
  obtain ⟨l, hl, ht⟩ := hu u' h1
  have := h2 _ (hc l hl)
  rw [litVal_neg, ht] at this; cases this

theorem Best.opt {P : Prob} {O : Orc} {H : Nat → Bool} {ub : Nat} {u : Nat → Bool} (h : Best P ub ub u) : Right P O H (.opt ub u) := ⟨h.holds, h.cost, h.lower⟩

theorem atMost_encode {P : Prob} (hw : P.WF) (h1 : P.Unit) {t : Tot} (hi : t.inc = false) {s : Sol} (hs : s = P.relaxed 0) (b : Nat) :
    ∃ t' s', t.encode s P.obj b = some (t', s') ∧ t'.inc = false ∧ AtMost P s' [] b := by
  subst hs
  obtain ⟨t', s', e1, e2, e3, e4, e5, _, e6⟩ := encode_spec (t := t) (rhs := b) hi (Prob.relaxed_wf hw 0) (P.obj_below 0)
  refine ⟨t', s', e1, e4, fun u hu _ => ?_, fun u hu hc => ?_⟩
  · have := e2.holds hu
    exact ⟨(Prob.relaxed_sound this).1, Nat.le_trans (h1.cost_le this) (e5 u hu)⟩
  · obtain ⟨v, _, hv, ht, hcost⟩ := Prob.exists_tight hw hu
    obtain ⟨u', _, g2, _⟩ := e6 v (ht.relaxed hv 0) (by rw [← h1.cost_eq ht, hcost]; exact hc)
    exact ⟨u', g2, fun a ha => nomatch ha⟩

/-- enough passes: one for the first model, one for each lower bound, one for the last answer -/
theorem usNone_right {P : Prob} (hw : P.WF) (h1 : P.Unit) {O : Orc} (hO : O.Ok) (H : Nat → Bool) : ∀ (f k : Nat) (t : Tot) (s : Sol) (nb lb ub : Nat) (u : Nat → Bool),
    t.inc = false → (nb = 0 → s = P.relaxed 0 ∧ lb = 0 ∧ P.soft.length + 2 ≤ f) → (nb ≠ 0 → AtMost P s [] lb ∧ Best P lb ub u ∧ ub + 1 ≤ f + lb) →
    ∃ r, usNone P O H f k t s nb lb ub u = some r ∧ Right P O H r := by
  intro f
  induction f with
  | zero =>
    intro k t s nb lb ub u _ h0 hn
    by_cases hz : nb = 0
    · exact absurd (h0 hz).2.2 (by omega)
    · obtain ⟨_, h3, h4⟩ := hn hz
      have := h3.lower u h3.holds
      rw [h3.cost] at this; omega
  | succ f ih =>
    intro k t s nb lb ub u hi h0 hn
    rw [usNone]
    have ho := hO k s []
    split
    · rename_i hm
      exact ⟨_, rfl, .inl ⟨_, _, _, hm⟩⟩
    · rename_i m hm
      rw [hm] at ho
      split
      · rename_i hz
        obtain ⟨hs, hl, hf⟩ := h0 hz
        split
        · rename_i hm
          exact ⟨_, rfl, .inr ⟨_, hm⟩⟩
        · obtain ⟨t', s', e1, e2, e3⟩ := atMost_encode hw h1 hi hs 0
          rw [e1]
          subst hl
          refine ih _ _ _ _ _ _ _ e2 (fun e => by omega) (fun _ => ⟨e3, ⟨?_, rfl, fun _ _ => Nat.zero_le _⟩, ?_⟩)
          · rw [hs] at ho
            exact (Prob.relaxed_sound ho.1).1
          · have := h1.cost_le_length hw m
            rw [Prob.obj_length] at this; omega
      · rename_i hz
        obtain ⟨h2, h3, _⟩ := hn hz
        exact ⟨_, rfl, h2.sat h3 ho.1 ho.2⟩
    · rename_i core hm
      rw [hm] at ho
      split
      · rename_i hz
        refine ⟨_, rfl, fun u hu => ?_⟩
        obtain ⟨v, _, hv, ht, _⟩ := Prob.exists_tight hw hu
        obtain ⟨l, hl, _⟩ := ho.2.2 v (by rw [(h0 hz).1]; exact ht.relaxed hv 0)
        exact nomatch ho.1 l hl
      · rename_i hz
        obtain ⟨h2, h3, h4⟩ := hn hz
        have hb := h2.unsat h3 ho.1 ho.2.2
        split
        · rename_i he
          rw [he] at hb
          exact ⟨_, rfl, hb.opt⟩
        · split
          · rename_i hm
            exact ⟨_, rfl, .inr ⟨_, hm⟩⟩
          · obtain ⟨t', s', e1, e2, e3⟩ := atMost_encode hw h1 hi rfl (lb + 1)
            rw [e1]
            exact ih _ _ _ _ _ _ _ e2 (fun e => absurd e hz) (fun _ => ⟨e3, hb, by omega⟩)

/-- solver and totalizer of the iterative search -/
structure IterSt (P : Prob) (t : Tot) (s : Sol) : Prop where
  inc : t.inc = true
  ext : Ext (P.relaxed 0) s
  start : t.has = false → t.zs = [] ∧ t.join = false ∧ s = P.relaxed 0
  built : t.has = true → Counts t s P.obj
  canon : ∀ u, P.Holds u → P.Tight u → ∃ u' : Nat → Bool, (∀ x < (P.relaxed 0).n, u' x = u x) ∧ s.Holds u' ∧ (t.has = true → Canon u' t P.obj)

theorem iter_step {P : Prob} (hw : P.WF) (h1 : P.Unit) {t : Tot} {s : Sol} (h : IterSt P t s) {b : Nat} (h0 : 0 < b) (hb : b < P.obj.length) :
    ∃ t' s' as, ((if t.has then (t, s) else t.build s P.obj b).1.incUpdate (if t.has then (t, s) else t.build s P.obj b).2 [] b) = some (t', s', as) ∧ IterSt P t' s' ∧ AtMost P s' as b := by
  -- first the encoding is there
  have B : ∃ c : Tot × Sol, (if t.has then (t, s) else t.build s P.obj b) = c ∧ c.1.has = true ∧ IterSt P c.1 c.2 := by
    by_cases hh : t.has = true
    · rw [if_pos hh]; exact ⟨_, rfl, hh, h⟩
    · rw [if_neg hh]
      have hf : t.has = false := by simpa using hh
      obtain ⟨hz, hj, hs⟩ := h.start hf
      have ho : t.old = [] := by unfold Tot.old; rw [hz]; simp
      obtain ⟨b1, b2, b3, _, b4, b5, b6, b7, b8⟩ := build_spec (t := t) (s := s) (lits := P.obj) (rhs := b) (by omega) (fun e => by rw [h.inc] at e; exact nomatch e.1) (fun e => by omega)
        (by rw [ho, hs]; exact ⟨Prob.relaxed_wf hw 0, fun z hz => (nomatch hz), fun z hz => (nomatch hz)⟩) (by rw [hs]; exact P.obj_below 0)
      refine ⟨_, rfl, b1, b3.trans h.inc, h.ext.trans b4, fun e => (by rw [b1] at e; cases e), fun _ => b5, fun u hu ht => ?_⟩
      obtain ⟨v, e1, e2, _⟩ := h.canon u hu ht
      obtain ⟨u', g1, g2, g3⟩ := b8 v e2 (by rw [ho]; exact fun z hz => nomatch hz)
      exact ⟨u', fun x hx => by rw [g1 x (Nat.lt_of_lt_of_le hx h.ext.n), e1 x hx], g2, fun _ => g3⟩
  obtain ⟨c, hc, hh, hI⟩ := B
  rw [hc]
  obtain ⟨t', s', e1, e2, e3, e4, e5, e6, e7, e8, _, e9, e10⟩ := update_inc_spec (rhs := b) hI.inc (hI.built hh) (by omega)
  unfold Tot.incUpdate
  rw [if_pos rfl, e1]
  have hcan : ∀ u, P.Holds u → P.Tight u → ∃ u' : Nat → Bool, (∀ x < (P.relaxed 0).n, u' x = u x) ∧ s'.Holds u' ∧ Canon u' t' P.obj := by
    intro u hu ht
    obtain ⟨v, f1, f2, f3⟩ := hI.canon u hu ht
    exact ⟨v, f1, e10 v f2 (f3 hh)⟩
  refine ⟨_, _, _, rfl, ⟨e5, hI.ext.trans e2, fun e => (by rw [e7, hh] at e; cases e), fun _ => e4, fun u hu ht => ?_⟩, ⟨fun u hu ha => ?_, fun u hu hle => ?_⟩⟩
  · obtain ⟨u', f1, f2, f3⟩ := hcan u hu ht
    exact ⟨u', f1, f2, fun _ => f3⟩
  · have hr := (hI.ext.trans e2).holds hu
    rw [← e8] at ha
    exact ⟨(Prob.relaxed_sound hr).1, Nat.le_trans (h1.cost_le hr) (asm_le e4 e9 hu ha)⟩
  · obtain ⟨v, _, hv, ht, hcost⟩ := Prob.exists_tight hw hu
    obtain ⟨u', f1, f2, f3⟩ := hcan v hv ht
    rw [← e8]
    refine ⟨u', f2, le_asm f3 ?_⟩
    rw [cnt_congr fun l hl => f1 _ (P.obj_below 0 l hl), ← h1.cost_eq ht, hcost]; exact hle

theorem usIter_right {P : Prob} (hw : P.WF) (h1 : P.Unit) {O : Orc} (hO : O.Ok) (H : Nat → Bool) : ∀ (f k : Nat) (t : Tot) (s : Sol) (as : List Nat) (nb lb ub : Nat) (u : Nat → Bool),
    IterSt P t s → (nb = 0 → s = P.relaxed 0 ∧ as = [] ∧ lb = 0 ∧ P.soft.length + 2 ≤ f) → (nb ≠ 0 → AtMost P s as lb ∧ Best P lb ub u ∧ ub + 1 ≤ f + lb) →
    ∃ r, usIter P O H f k t s as nb lb ub u = some r ∧ Right P O H r := by
  intro f
  induction f with
  | zero =>
    intro k t s as nb lb ub u _ h0 hn
    by_cases hz : nb = 0
    · exact absurd (h0 hz).2.2.2 (by omega)
    · obtain ⟨_, h3, h4⟩ := hn hz
      have := h3.lower u h3.holds
      rw [h3.cost] at this; omega
  | succ f ih =>
    intro k t s as nb lb ub u hi h0 hn
    rw [usIter]
    have ho := hO k s as
    split
    · rename_i hm
      exact ⟨_, rfl, .inl ⟨_, _, _, hm⟩⟩
    · rename_i m hm
      rw [hm] at ho
      split
      · rename_i hz
        obtain ⟨hs, ha, hl, hf⟩ := h0 hz
        split
        · rename_i hm
          exact ⟨_, rfl, .inr ⟨_, hm⟩⟩
        · subst hl ha
          rw [hs] at ho
          refine ih _ _ _ _ _ _ _ _ hi (fun e => by omega) (fun _ => ⟨⟨fun v hv ha => ?_, fun v hv hc => ?_⟩, ⟨(Prob.relaxed_sound ho.1).1, rfl, fun _ _ => Nat.zero_le _⟩, ?_⟩)
          · rw [hs] at hv
            refine ⟨(Prob.relaxed_sound hv).1, Nat.le_trans (h1.cost_le hv) (Nat.le_of_eq (cnt_eq_zero.2 fun l hl => ?_))⟩
            have := ha (neg l) (by rw [List.nil_append]; exact List.mem_map.2 ⟨l, hl, rfl⟩)
            rw [litVal_neg] at this
            simpa using this
          · obtain ⟨w, _, hw', ht, hcost⟩ := Prob.exists_tight hw hv
            refine ⟨w, by rw [hs]; exact ht.relaxed hw' 0, fun a ha => ?_⟩
            rw [List.nil_append] at ha
            obtain ⟨l, hl, rfl⟩ := List.mem_map.1 ha
            have hz : cnt w P.obj = 0 := by rw [← h1.cost_eq ht]; omega
            rw [litVal_neg, cnt_eq_zero.1 hz l hl]; rfl
          · have := h1.cost_le_length hw m
            rw [Prob.obj_length] at this; omega
      · rename_i hz
        obtain ⟨h2, h3, _⟩ := hn hz
        exact ⟨_, rfl, h2.sat h3 ho.1 ho.2⟩
    · rename_i core hm
      rw [hm] at ho
      split
      · rename_i hz
        obtain ⟨hs, ha, _⟩ := h0 hz
        refine ⟨_, rfl, fun u hu => ?_⟩
        obtain ⟨v, _, hv, ht, _⟩ := Prob.exists_tight hw hu
        obtain ⟨l, hl, _⟩ := ho.2.2 v (by rw [hs]; exact ht.relaxed hv 0)
        have := ho.1 l hl
        rw [ha] at this; cases this
      · rename_i hz
        obtain ⟨h2, h3, h4⟩ := hn hz
        have hb := h2.unsat h3 ho.1 ho.2.2
        split
        · rename_i he
          rw [he] at hb
          exact ⟨_, rfl, hb.opt⟩
        · rename_i he
          split
          · rename_i hm
            exact ⟨_, rfl, .inr ⟨_, hm⟩⟩
          · have hlt : lb + 1 < P.obj.length := by
              have a1 := hb.lower u hb.holds
              have a2 := h1.cost_le_length hw u
              rw [hb.cost] at a1 a2
              omega
            obtain ⟨t', s', as', e1, e2, e3⟩ := iter_step hw h1 hi (Nat.succ_pos lb) hlt
            dsimp only
            rw [e1]
            exact ih _ _ _ _ _ _ _ _ e2 (fun e => absurd e hz) (fun _ => ⟨e3, hb, by omega⟩)

/-- C30 for LinearUS: with either incremental strategy, for every behaviour of the SAT solver and the handler, the search ends and its result is right -/
theorem linearUS_right {P : Prob} (hw : P.WF) (h1 : P.Unit) {O : Orc} (hO : O.Ok) (H : Nat → Bool) (inc : Bool) {f : Nat} (hf : P.soft.length + 2 ≤ f) :
    ∃ r, linearUS inc P O H f = some r ∧ Right P O H r := by
  unfold linearUS
  split
  · refine usIter_right hw h1 hO H f 0 _ _ _ 0 0 _ _ ⟨rfl, Ext.refl _, fun _ => ⟨rfl, rfl, rfl⟩, fun e => (nomatch e), fun u hu ht => ⟨u, fun _ _ => rfl, ht.relaxed hu 0, fun e => (nomatch e)⟩⟩
      (fun _ => ⟨rfl, rfl, rfl, hf⟩) (fun e => absurd rfl e)
  · exact usNone_right hw h1 hO H f 0 _ _ 0 0 _ _ rfl (fun _ => ⟨rfl, rfl, hf⟩) (fun e => absurd rfl e)

end Verif.MaxAlg
