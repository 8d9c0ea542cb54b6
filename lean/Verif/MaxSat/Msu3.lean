import Verif.MaxSat.LinearUS

/-! # MSU3 (alg_msu3.go) -/

namespace Verif.MaxAlg

open Verif.MaxSat (litVal clauseVal costC)

/-! ## model -/

/-- `coreMapping` (alg_msu3.go:57-59, 116-118): the soft clause of an assumption literal -/
def Prob.coreIdx (P : Prob) (l : Nat) : Option Nat := if l ∈ P.obj then some (l / 2 - P.n) else none

/-- the relaxation literals of the active soft clauses (alg_msu3.go:93-98, 163-168) -/
def Prob.cur (P : Prob) (act : Nat → Bool) : List Nat := ((List.range P.soft.length).filter act).map fun i => 2 * (P.n + i)

/-- the assumptions for the others (alg_msu3.go:99, 169) -/
def Prob.rest (P : Prob) (act : Nat → Bool) : List Nat := ((List.range P.soft.length).filter fun i => !act i).map fun i => neg (2 * (P.n + i))

/-- alg_msu3.go:60-105, the loop of `none`.  `activeSoft[coreMapping[l]]` reads index 0 for a literal without entry. -/
def msu3None (P : Prob) (O : Orc) (H : Nat → Bool) : Nat → Nat → Tot → Sol → List Nat → (Nat → Bool) → Nat → Nat → Nat → (Nat → Bool) → Option Res
  | 0, _, _, _, _, _, _, _, _, _ => none
  | f + 1, k, t, s, as, act, nb, lb, ub, u => match O k s as with
    | .cancel => some .cancel
    | .sat u => if nb = 0 then
          if H k = false then some .cancel
          else msu3None P O H f (k + 1) t s (as ++ P.obj.map neg) act 1 lb (costC u P.soft) u
        else some (.opt (costC u P.soft) u)
    | .unsat core => if nb = 0 then some .unsat
        else if lb + 1 = ub then some (.opt ub u)
        else if H k = false then some .cancel
        else
          let act' : Nat → Bool := fun i => act i || core.any fun l => decide ((P.coreIdx l).getD 0 = i)
          (t.encode (P.relaxed 0) (P.cur act') (lb + 1)).bind fun r => msu3None P O H f (k + 1) r.1 r.2 (P.rest act') act' nb (lb + 1) ub u

/-- alg_msu3.go:120-184, the loop of `iterative` -/
def msu3Iter (P : Prob) (O : Orc) (H : Nat → Bool) : Nat → Nat → Tot → Sol → List Nat → (Nat → Bool) → Nat → Nat → Nat → (Nat → Bool) → Option Res
  | 0, _, _, _, _, _, _, _, _, _ => none
  | f + 1, k, t, s, as, act, nb, lb, ub, u => match O k s as with
    | .cancel => some .cancel
    | .sat u => if nb = 0 then
          if H k = false then some .cancel
          else msu3Iter P O H f (k + 1) t s (as ++ P.obj.map neg) act 1 lb (costC u P.soft) u
        else some (.opt (costC u P.soft) u)
    | .unsat core => if nb = 0 then some .unsat
        else if lb + 1 = ub then some (.opt ub u)
        else if core = [] then some .unsat
        else if H k = false then some .cancel
        else
          let joined := core.filter fun l => (P.coreIdx l).isSome
          let act' : Nat → Bool := fun i => act i || core.any fun l => decide (P.coreIdx l = some i)
          let r := if t.has = false then
              if lb + 1 ≠ (P.cur act').length then (t.build s (P.cur act') (lb + 1)).1.incUpdate (t.build s (P.cur act') (lb + 1)).2 [] (lb + 1) else some (t, s, [])
            else t.incUpdate s joined (lb + 1)
          r.bind fun r => msu3Iter P O H f (k + 1) r.1 r.2.1 (P.rest act' ++ r.2.2) act' nb (lb + 1) ub u

/-- alg_msu3.go:31 `search` for unweighted problems -/
def msu3 (inc : Bool) (P : Prob) (O : Orc) (H : Nat → Bool) (fuel : Nat) : Option Res :=
  if inc then msu3Iter P O H fuel 0 { inc := true } (P.relaxed 0) [] (fun _ => false) 0 0 (P.soft.map (·.2)).sum fun _ => false
  else msu3None P O H fuel 0 { inc := false } (P.relaxed 0) [] (fun _ => false) 0 0 (P.soft.map (·.2)).sum fun _ => false

/-! ## proofs -/

theorem Prob.obj_eq (P : Prob) : P.obj = (List.range P.soft.length).map fun i => 2 * (P.n + i) := by
  unfold Prob.obj Prob.objW
  rw [List.map_map]
  apply List.ext_getElem
  · simp
  · intro i h1 h2
    simp

theorem Prob.cnt_cur (P : Prob) (act : Nat → Bool) (u : Nat → Bool) : cnt u (P.cur act) = (List.range P.soft.length).countP fun i => act i && litVal u (2 * (P.n + i)) := by
  unfold cnt Prob.cur
  rw [List.countP_map, List.countP_filter]
  exact List.countP_congr fun i _ => by simp [and_comm]

theorem countP_lt {α : Type} {p q : α → Bool} : ∀ {l : List α}, (∀ x ∈ l, p x = true → q x = true) → (∃ x ∈ l, q x = true ∧ p x = false) → l.countP p + 1 ≤ l.countP q
  | [], _, h => by obtain ⟨x, hx, _⟩ := h; cases hx
  | y :: ys, hm, h => by
    rw [List.countP_cons, List.countP_cons]
    obtain ⟨x, hx, hq, hp⟩ := h
    have hle : ys.countP p ≤ ys.countP q := List.countP_mono_left fun x hx => hm x (List.mem_cons_of_mem _ hx)
    have hy := hm y List.mem_cons_self
    rcases List.mem_cons.1 hx with rfl | hx
    · rw [if_neg (by rw [hp]; simp), if_pos hq]; omega
    · have := countP_lt (l := ys) (fun x hx => hm x (List.mem_cons_of_mem _ hx)) ⟨x, hx, hq, hp⟩
      by_cases hpy : p y = true
      · rw [if_pos hpy, if_pos (hy hpy)]; omega
      · rw [if_neg hpy]; split <;> omega

theorem Prob.cur_mono {P : Prob} {a b : Nat → Bool} (h : ∀ i, a i = true → b i = true) (u : Nat → Bool) : cnt u (P.cur a) ≤ cnt u (P.cur b) := by
  rw [P.cnt_cur, P.cnt_cur]
  refine List.countP_mono_left fun i _ hi => ?_
  rw [Bool.and_eq_true] at hi ⊢
  exact ⟨h i hi.1, hi.2⟩

theorem Prob.cur_lt {P : Prob} {a b : Nat → Bool} (h : ∀ i, a i = true → b i = true) {u : Nat → Bool} {i : Nat} (hi : i < P.soft.length) (ha : a i = false) (hb : b i = true)
    (hu : litVal u (2 * (P.n + i)) = true) : cnt u (P.cur a) + 1 ≤ cnt u (P.cur b) := by
  rw [P.cnt_cur, P.cnt_cur]
  refine countP_lt (fun i _ hi => ?_) ⟨i, List.mem_range.2 hi, by rw [hb, hu]; rfl, by rw [ha]; rfl⟩
  rw [Bool.and_eq_true] at hi ⊢
  exact ⟨h i hi.1, hi.2⟩

theorem Prob.cur_below (P : Prob) (a : Nat → Bool) (w : Nat) : Below (P.relaxed w).n (P.cur a) := by
  intro l hl
  obtain ⟨i, hi, rfl⟩ := List.mem_map.1 hl
  have := List.mem_range.1 (List.mem_of_mem_filter hi)
  show 2 * (P.n + i) / 2 < P.n + P.soft.length
  omega

/-- without violated inactive soft clauses, the active ones are all -/
theorem Prob.obj_le_cur {P : Prob} {act : Nat → Bool} {u : Nat → Bool} (h : ∀ a ∈ P.rest act, litVal u a = true) : cnt u P.obj ≤ cnt u (P.cur act) := by
  rw [P.cnt_cur, P.obj_eq]
  unfold cnt
  rw [List.countP_map]
  refine List.countP_mono_left fun i hi hv => ?_
  rw [Bool.and_eq_true]
  refine ⟨?_, hv⟩
  by_cases ha : act i = true
  · exact ha
  · have := h (neg (2 * (P.n + i))) (List.mem_map.2 ⟨i, List.mem_filter.2 ⟨hi, by simpa using ha⟩, rfl⟩)
    rw [litVal_neg] at this
    have hv' : litVal u (2 * (P.n + i)) = true := hv
    rw [hv'] at this; cases this

/-- solver and assumptions of MSU3 with the bound `lb` on the active soft clauses -/
structure Msu (P : Prob) (act : Nat → Bool) (lb : Nat) (s : Sol) (as : List Nat) : Prop where
  ext : Ext (P.relaxed 0) s
  rest : ∀ a ∈ P.rest act, a ∈ as
  le : ∀ u, s.Holds u → (∀ a ∈ as, litVal u a = true) → cnt u (P.cur act) ≤ lb
  comp : ∀ v, P.Holds v → P.Tight v → cnt v (P.cur act) ≤ lb →
    ∃ v' : Nat → Bool, (∀ x < (P.relaxed 0).n, v' x = v x) ∧ s.Holds v' ∧ ∀ a ∈ as, litVal v' a = false → a ∈ P.rest act

/-- every assignment violates at least `lb` active soft clauses -/
def MsuLow (P : Prob) (act : Nat → Bool) (lb : Nat) : Prop := ∀ v, P.Holds v → P.Tight v → lb ≤ cnt v (P.cur act)

theorem MsuLow.lower {P : Prob} (hw : P.WF) (h1 : P.Unit) {act : Nat → Bool} {lb : Nat} (h : MsuLow P act lb) : ∀ v, P.Holds v → lb ≤ costC v P.soft := by
  intro v hv
  obtain ⟨w, _, hv', ht, hc⟩ := Prob.exists_tight hw hv
  rw [← hc, h1.cost_eq ht]
  refine Nat.le_trans (h w hv' ht) ?_
  rw [P.cnt_cur, P.obj_eq]
  unfold cnt
  rw [List.countP_map]
  refine List.countP_mono_left fun i _ hi => ?_
  rw [Bool.and_eq_true] at hi
  exact hi.2

theorem Msu.sat {P : Prob} {O : Orc} {H : Nat → Bool} (h1 : P.Unit) {act : Nat → Bool} {lb : Nat} {s : Sol} {as : List Nat} (h : Msu P act lb s as) (hl : ∀ v, P.Holds v → lb ≤ costC v P.soft) {u : Nat → Bool}
    (hu : s.Holds u) (ha : ∀ a ∈ as, litVal u a = true) : Right P O H (.opt (costC u P.soft) u) := by
  have hr := h.ext.holds hu
  refine ⟨(Prob.relaxed_sound hr).1, rfl, fun v hv => Nat.le_trans ?_ (hl v hv)⟩
  exact Nat.le_trans (h1.cost_le hr) (Nat.le_trans (Prob.obj_le_cur fun a h' => ha a (h.rest a h')) (h.le u hu ha))

/-- a core: one more active soft clause is violated -/
theorem Msu.unsat {P : Prob} {act act' : Nat → Bool} {lb : Nat} {s : Sol} {as : List Nat} (h : Msu P act lb s as) (hl : MsuLow P act lb) {core : List Nat} (hc : ∀ l ∈ core, neg l ∈ as)
    (hu : ∀ u, s.Holds u → ∃ l ∈ core, litVal u l = true) (hm : ∀ i, act i = true → act' i = true) (hn : ∀ l ∈ core, ∀ i < P.soft.length, l = 2 * (P.n + i) → act' i = true) :
    MsuLow P act' (lb + 1) := by
  intro v hv ht
  by_cases hle : cnt v (P.cur act) ≤ lb
  · obtain ⟨v', g1, g2, g3⟩ := h.comp v hv ht hle
    obtain ⟨l, hl', hv'⟩ := hu v' g2
    obtain ⟨i, hi, he⟩ := List.mem_map.1 (g3 (neg l) (hc l hl') (by rw [litVal_neg, hv']; rfl))
    obtain ⟨hi1, hi2⟩ := List.mem_filter.1 hi
    have hlt := List.mem_range.1 hi1
    have hel : l = 2 * (P.n + i) := by rw [← neg_neg l, ← he, neg_neg]
    have hvi : litVal v (2 * (P.n + i)) = true := by
      rw [← hel, ← hv']
      refine (litVal_congr (g1 _ ?_)).symm
      rw [hel]
      show 2 * (P.n + i) / 2 < P.n + P.soft.length
      omega
    have := Prob.cur_lt hm hlt (by simpa using hi2) (hn l hl' i hlt hel) hvi
    have := hl v hv ht
    omega
  · have := Prob.cur_mono (P := P) hm v
    omega

theorem Prob.coreIdx_lit {P : Prob} {i : Nat} (hi : i < P.soft.length) : P.coreIdx (2 * (P.n + i)) = some i := by
  unfold Prob.coreIdx
  rw [if_pos (by rw [P.obj_eq]; exact List.mem_map.2 ⟨i, List.mem_range.2 hi, rfl⟩), show 2 * (P.n + i) / 2 - P.n = i by omega]

theorem Prob.rest_none (P : Prob) : P.rest (fun _ => false) = P.obj.map neg := by
  unfold Prob.rest
  rw [P.obj_eq, List.map_map]
  congr 1
  exact List.filter_eq_self.2 fun _ _ => rfl

/-- the first assumptions: nothing is active -/
theorem msu_start {P : Prob} : Msu P (fun _ => false) 0 (P.relaxed 0) ([] ++ P.obj.map neg) := by
  have hc : ∀ u, cnt u (P.cur fun _ => false) = 0 := fun u => by rw [P.cnt_cur]; simp
  refine ⟨Ext.refl _, fun a ha => by rw [P.rest_none] at ha; exact ha, fun u _ _ => by rw [hc]; exact Nat.le_refl _, fun v hv ht _ => ⟨v, fun _ _ => rfl, ht.relaxed hv 0, fun a ha _ => ?_⟩⟩
  rw [P.rest_none]; exact ha

theorem msu_encode {P : Prob} (hw : P.WF) {t : Tot} (hi : t.inc = false) (act : Nat → Bool) (lb : Nat) :
    ∃ t' s', t.encode (P.relaxed 0) (P.cur act) lb = some (t', s') ∧ t'.inc = false ∧ Msu P act lb s' (P.rest act) := by
  obtain ⟨t', s', e1, e2, _, e4, e5, _, e6⟩ := encode_spec (t := t) (rhs := lb) hi (Prob.relaxed_wf hw 0) (P.cur_below act 0)
  refine ⟨t', s', e1, e4, e2, fun a ha => ha, fun u hu _ => e5 u hu, fun v hv ht hc => ?_⟩
  obtain ⟨u', g1, g2, _⟩ := e6 v (ht.relaxed hv 0) hc
  exact ⟨u', g1, g2, fun a ha _ => ha⟩

theorem msu3None_right {P : Prob} (hw : P.WF) (h1 : P.Unit) {O : Orc} (hO : O.Ok) (H : Nat → Bool) :
    ∀ (f k : Nat) (t : Tot) (s : Sol) (as : List Nat) (act : Nat → Bool) (nb lb ub : Nat) (u : Nat → Bool), t.inc = false →
    (nb = 0 → s = P.relaxed 0 ∧ as = [] ∧ (∀ i, act i = false) ∧ lb = 0 ∧ P.soft.length + 2 ≤ f) →
    (nb ≠ 0 → Msu P act lb s as ∧ MsuLow P act lb ∧ Best P lb ub u ∧ ub + 1 ≤ f + lb) →
    ∃ r, msu3None P O H f k t s as act nb lb ub u = some r ∧ Right P O H r := by
  intro f
  induction f with
  | zero =>
    intro k t s as act nb lb ub u _ h0 hn
    by_cases hz : nb = 0
    · exact absurd (h0 hz).2.2.2.2 (by omega)
    · obtain ⟨_, _, h3, h4⟩ := hn hz
      have := h3.lower u h3.holds
      rw [h3.cost] at this; omega
  | succ f ih =>
    intro k t s as act nb lb ub u hi h0 hn
    rw [msu3None]
    have ho := hO k s as
    split
    · rename_i hm
      exact ⟨_, rfl, .inl ⟨_, _, _, hm⟩⟩
    · rename_i m hm
      rw [hm] at ho
      split
      · rename_i hz
        obtain ⟨hs, ha, hact, hl, hf⟩ := h0 hz
        split
        · rename_i hm
          exact ⟨_, rfl, .inr ⟨_, hm⟩⟩
        · subst hl ha hs
          have hact' : act = fun _ => false := funext hact
          subst hact'
          refine ih _ _ _ _ _ _ _ _ _ hi (fun e => by omega) (fun _ => ⟨msu_start, fun _ _ _ => Nat.zero_le _, ⟨(Prob.relaxed_sound ho.1).1, rfl, fun _ _ => Nat.zero_le _⟩, ?_⟩)
          have := h1.cost_le_length hw m
          rw [Prob.obj_length] at this; omega
      · rename_i hz
        obtain ⟨h2, _, h3, _⟩ := hn hz
        exact ⟨_, rfl, h2.sat h1 h3.lower ho.1 ho.2⟩
    · rename_i core hm
      rw [hm] at ho
      split
      · rename_i hz
        obtain ⟨hs, ha, _⟩ := h0 hz
        refine ⟨_, rfl, fun u hu => ?_⟩
        obtain ⟨v, _, hv, ht, _⟩ := Prob.exists_tight hw hu
        obtain ⟨l, hl, _⟩ := ho.2.2 v (by rw [hs]; exact ht.relaxed hv 0)
        have := ho.1 l hl
        rw [ha] at this; cases this
      · rename_i hz
        obtain ⟨h2, h2', h3, h4⟩ := hn hz
        have hlow := h2.unsat (act' := fun i => act i || core.any fun l => decide ((P.coreIdx l).getD 0 = i)) h2' ho.1 ho.2.2 (fun i hi => by rw [hi]; rfl) (fun l hl i hi he => by
          rw [Bool.or_eq_true]
          refine .inr (List.any_eq_true.2 ⟨l, hl, ?_⟩)
          rw [he, Prob.coreIdx_lit hi]; simp)
        have hb : Best P (lb + 1) ub u := ⟨h3.holds, h3.cost, hlow.lower hw h1⟩
        split
        · rename_i he
          rw [he] at hb
          exact ⟨_, rfl, hb.opt⟩
        · split
          · rename_i hm
            exact ⟨_, rfl, .inr ⟨_, hm⟩⟩
          · obtain ⟨t', s', e1, e2, e3⟩ := msu_encode hw hi (fun i => act i || core.any fun l => decide ((P.coreIdx l).getD 0 = i)) (lb + 1)
            dsimp only
            rw [e1]
            exact ih _ _ _ _ _ _ _ _ _ e2 (fun e => absurd e hz) (fun _ => ⟨e3, hlow, hb, by omega⟩)

/-! ### the iterative strategy -/

theorem Counts.perm {t : Tot} {s : Sol} {a b : List Nat} (h : Counts t s a) (p : a.Perm b) : Counts t s b :=
  ⟨h.pre, h.out, fun l hl => h.bins l (p.mem_iff.2 hl), h.tree.elim fun ls h => ⟨ls, h.1, h.2.trans p⟩⟩

theorem Canon.perm {u : Nat → Bool} {t : Tot} {a b : List Nat} (h : Canon u t a) (p : a.Perm b) : Canon u t b := ⟨h.full, h.exact.perm p⟩

theorem build_out {t : Tot} {s : Sol} {lits : List Nat} {rhs : Nat} : ∀ l ∈ (t.build s lits rhs).1.out, s.n ≤ l / 2 := by
  unfold Tot.build
  split
  · exact fun l hl => nomatch hl
  · split
    · exact fun l hl => nomatch hl
    · split
      · exact fun l hl => nomatch hl
      · exact fun l hl => freshN_ge hl

theorem join_out {t : Tot} {s : Sol} {lits : List Nat} {rhs : Nat} (h : s.n ≤ (if 1 < lits.length then t.build s lits (min rhs lits.length) else ({ t with out := lits }, s)).2.n) :
    ∀ l ∈ (t.joinLits s lits rhs).1.out, s.n ≤ l / 2 := by
  unfold Tot.joinLits
  exact fun l hl => Nat.le_trans h (freshN_ge hl)

theorem toCnf_n (rhs : Nat) : ∀ (k : Nat) (s : Sol) (ins o : List Nat), s.n ≤ (toCnf rhs k s ins o).1.n := by
  intro k
  induction k with
  | zero => exact fun s ins o => Nat.le_refl _
  | succ k ih =>
    intro s ins o
    rw [toCnf]
    have hp : ∀ m (s : Sol) ins, s.n ≤ (part m s ins).2.1.n := by
      intro m s ins
      unfold part
      split
      · exact Nat.le_refl _
      · exact Nat.le_add_right _ _
    obtain ⟨p1, hp1⟩ : ∃ p, part (o.length / 2) s ins = p := ⟨_, rfl⟩
    have a1 := hp (o.length / 2) s ins
    rw [hp1] at a1 ⊢
    obtain ⟨p2, hp2⟩ : ∃ p, part (o.length - o.length / 2) p1.2.1 p1.2.2 = p := ⟨_, rfl⟩
    have a2 := hp (o.length - o.length / 2) p1.2.1 p1.2.2
    rw [hp2] at a2 ⊢
    obtain ⟨s2, hs2⟩ : ∃ s2, p2.2.1.addAll (adderAll p1.1 p2.1 o fun m => decide (m ≤ rhs + 1)) = s2 := ⟨_, rfl⟩
    have a3 : s2.n = p2.2.1.n := by rw [← hs2]; rfl
    rw [hs2]
    have a4 : s2.n ≤ (if 1 < p1.1.length then toCnf rhs k s2 p2.2.2 p1.1 else (s2, p2.2.2, [])).1.n := by
      split
      · exact ih _ _ _
      · exact Nat.le_refl _
    obtain ⟨q1, hq1⟩ : ∃ q, (if 1 < p1.1.length then toCnf rhs k s2 p2.2.2 p1.1 else (s2, p2.2.2, [])) = q := ⟨_, rfl⟩
    rw [hq1] at a4 ⊢
    have a5 : q1.1.n ≤ (if 1 < p2.1.length then toCnf rhs k q1.1 q1.2.1 p2.1 else (q1.1, q1.2.1, [])).1.n := by
      split
      · exact ih _ _ _
      · exact Nat.le_refl _
    dsimp only
    omega

theorem build_n {t : Tot} {s : Sol} {lits : List Nat} {rhs : Nat} : s.n ≤ (t.build s lits rhs).2.n := by
  unfold Tot.build
  split
  · exact Nat.le_refl _
  · split
    · exact Nat.le_refl _
    · split
      · exact Nat.le_refl _
      · have := toCnf_n rhs (lits.length + 1) (s.freshN lits.length).2 lits.reverse (s.freshN lits.length).1
        exact Nat.le_trans (Nat.le_add_right _ _) this

theorem joinLits_out {t : Tot} {s : Sol} {lits : List Nat} {rhs : Nat} : ∀ l ∈ (t.joinLits s lits rhs).1.out, s.n ≤ l / 2 := by
  refine join_out ?_
  split
  · exact build_n
  · exact Nat.le_refl _

/-- solver, totalizer and assumptions of the iterative search -/
structure MsuI (P : Prob) (act : Nat → Bool) (lb : Nat) (t : Tot) (s : Sol) (as : List Nat) : Prop where
  inc : t.inc = true
  ext : Ext (P.relaxed 0) s
  start : t.has = false → t.zs = [] ∧ t.join = false ∧ s = P.relaxed 0
  join : t.has = true → t.join = true
  built : t.has = true → Counts t s (P.cur act)
  fresh : t.has = true → ∀ l ∈ t.out, (P.relaxed 0).n ≤ l / 2
  bound : t.has = true → ∀ z ∈ t.zs, z.rhs = lb
  len : t.has = false → (P.cur act).length ≤ lb
  canon : ∀ v, P.Holds v → P.Tight v → ∃ v' : Nat → Bool, (∀ x < (P.relaxed 0).n, v' x = v x) ∧ s.Holds v' ∧ (t.has = true → Canon v' t (P.cur act))
  asm : as = P.rest act ++ (if t.has then (t.out.drop lb).map neg else [])

theorem MsuI.msu {P : Prob} {act : Nat → Bool} {lb : Nat} {t : Tot} {s : Sol} {as : List Nat} (h : MsuI P act lb t s as) : Msu P act lb s as := by
  refine ⟨h.ext, fun a ha => by rw [h.asm]; exact List.mem_append_left _ ha, fun u hu ha => ?_, fun v hv ht hc => ?_⟩
  · by_cases hh : t.has = true
    · refine asm_le (h.built hh) (h.bound hh) hu fun a ha' => ha a ?_
      rw [h.asm, if_pos hh]; exact List.mem_append_right _ ha'
    · exact Nat.le_trans (cnt_le _ _) (h.len (by simpa using hh))
  · obtain ⟨v', g1, g2, g3⟩ := h.canon v hv ht
    refine ⟨v', g1, g2, fun a ha hf => ?_⟩
    rw [h.asm] at ha
    rcases List.mem_append.1 ha with ha | ha
    · exact ha
    · by_cases hh : t.has = true
      · rw [if_pos hh] at ha
        have := le_asm (g3 hh) (rhs := lb) (by rw [cnt_congr fun l hl => g1 _ (P.cur_below act 0 l hl)]; exact hc) a ha
        rw [hf] at this; cases this
      · rw [if_neg hh] at ha; cases ha

theorem Prob.mem_cur {P : Prob} {act : Nat → Bool} {l : Nat} : l ∈ P.cur act ↔ ∃ i < P.soft.length, act i = true ∧ l = 2 * (P.n + i) := by
  unfold Prob.cur
  rw [List.mem_map]
  constructor
  · rintro ⟨i, hi, rfl⟩
    obtain ⟨h1, h2⟩ := List.mem_filter.1 hi
    exact ⟨i, List.mem_range.1 h1, h2, rfl⟩
  · rintro ⟨i, h1, h2, rfl⟩
    exact ⟨i, List.mem_filter.2 ⟨List.mem_range.2 h1, h2⟩, rfl⟩

theorem Prob.cur_nodup (P : Prob) (act : Nat → Bool) : (P.cur act).Nodup := by
  unfold Prob.cur
  refine List.Nodup.map (fun a b h => ?_) (List.Nodup.filter _ List.nodup_range)
  have h : 2 * (P.n + a) = 2 * (P.n + b) := h
  omega

theorem Prob.coreIdx_some {P : Prob} {l i : Nat} (h : P.coreIdx l = some i) : i < P.soft.length ∧ l = 2 * (P.n + i) := by
  unfold Prob.coreIdx at h
  split at h
  · rename_i hm
    rw [P.obj_eq] at hm
    obtain ⟨j, hj, rfl⟩ := List.mem_map.1 hm
    injection h with h
    have := List.mem_range.1 hj
    have e : j = i := by omega
    subst e
    exact ⟨this, rfl⟩
  · cases h

/-- the relaxation literals of a core are those of the newly active soft clauses -/
theorem MsuI.perm {P : Prob} {act : Nat → Bool} {lb : Nat} {t : Tot} {s : Sol} {as : List Nat} (h : MsuI P act lb t s as) {core : List Nat} (hc : ∀ l ∈ core, neg l ∈ as) (hn : core.Nodup) :
    (P.cur act ++ core.filter fun l => (P.coreIdx l).isSome).Perm (P.cur fun i => act i || core.any fun l => decide (P.coreIdx l = some i)) := by
  have key : ∀ l ∈ core, ∀ i, P.coreIdx l = some i → act i = false := by
    intro l hl i hi
    obtain ⟨h1, h2⟩ := Prob.coreIdx_some hi
    have := hc l hl
    rw [h.asm] at this
    rcases List.mem_append.1 this with hm | hm
    · obtain ⟨j, hj, he⟩ := List.mem_map.1 hm
      obtain ⟨hj1, hj2⟩ := List.mem_filter.1 hj
      have e : 2 * (P.n + j) = 2 * (P.n + i) := by rw [← h2, ← neg_neg l, ← he, neg_neg]
      have : j = i := by omega
      subst this
      simpa using hj2
    · exfalso
      by_cases hh : t.has = true
      · rw [if_pos hh] at hm
        obtain ⟨x, hx, he⟩ := List.mem_map.1 hm
        have e : x = l := by rw [← neg_neg x, he, neg_neg]
        have := h.fresh hh x (List.mem_of_mem_drop hx)
        rw [e, h2] at this
        have : P.n + P.soft.length ≤ 2 * (P.n + i) / 2 := this
        omega
      · rw [if_neg hh] at hm; cases hm
  refine (List.perm_ext_iff_of_nodup ?_ (P.cur_nodup _)).2 fun l => ?_
  · refine List.nodup_append.2 ⟨P.cur_nodup _, hn.filter _, fun a ha b hb hab => ?_⟩
    subst hab
    obtain ⟨i, hi, hai, he⟩ := Prob.mem_cur.1 ha
    obtain ⟨hb1, _⟩ := List.mem_filter.1 hb
    have := key a hb1 i (by rw [he]; exact Prob.coreIdx_lit hi)
    rw [hai] at this; cases this
  · rw [List.mem_append, Prob.mem_cur, Prob.mem_cur]
    constructor
    · rintro (⟨i, h1, h2, h3⟩ | hm)
      · exact ⟨i, h1, by rw [h2]; rfl, h3⟩
      · obtain ⟨h1, h2⟩ := List.mem_filter.1 hm
        obtain ⟨i, hi⟩ := Option.isSome_iff_exists.1 h2
        obtain ⟨h3, h4⟩ := Prob.coreIdx_some hi
        exact ⟨i, h3, by rw [Bool.or_eq_true]; exact .inr (List.any_eq_true.2 ⟨l, h1, decide_eq_true hi⟩), h4⟩
    · rintro ⟨i, h1, h2, h3⟩
      rw [Bool.or_eq_true] at h2
      rcases h2 with h2 | h2
      · exact .inl ⟨i, h1, h2, h3⟩
      · obtain ⟨x, hx, hd⟩ := List.any_eq_true.1 h2
        have hd := of_decide_eq_true hd
        have : x = l := by rw [(Prob.coreIdx_some hd).2, h3]
        subst this
        exact .inr (List.mem_filter.2 ⟨hx, by rw [hd]; rfl⟩)

/-- after a core the encoding counts the newly active soft clauses too -/
theorem msuI_step {P : Prob} (hw : P.WF) {act : Nat → Bool} {lb : Nat} {t : Tot} {s : Sol} {as : List Nat} (h : MsuI P act lb t s as) {core : List Nat} (hc : ∀ l ∈ core, neg l ∈ as)
    (hn : core.Nodup) {act' : Nat → Bool} (hact : act' = fun i => act i || core.any fun l => decide (P.coreIdx l = some i)) (hl : lb + 1 ≤ (P.cur act').length) :
    ∃ t' s' as', (if t.has = false then
        if lb + 1 ≠ (P.cur act').length then (t.build s (P.cur act') (lb + 1)).1.incUpdate (t.build s (P.cur act') (lb + 1)).2 [] (lb + 1) else some (t, s, [])
      else t.incUpdate s (core.filter fun l => (P.coreIdx l).isSome) (lb + 1)) = some (t', s', as') ∧ MsuI P act' (lb + 1) t' s' (P.rest act' ++ as') := by
  by_cases hh : t.has = true
  · -- the bound is raised, the new literals are joined
    rw [if_neg (by rw [hh]; simp)]
    have hp := h.perm hc hn
    rw [← hact] at hp
    obtain ⟨lits, hlits⟩ : ∃ x, (core.filter fun l => (P.coreIdx l).isSome) = x := ⟨_, rfl⟩
    rw [hlits] at hp ⊢
    have J : ∃ t1 s1, (if lits = [] then (t, s) else t.joinLits s lits (lb + 1)) = (t1, s1) ∧ Ext s s1 ∧ Counts t1 s1 (P.cur act') ∧ t1.inc = true ∧ t1.join = true ∧ t1.has = true ∧
        (∀ l ∈ t1.out, (P.relaxed 0).n ≤ l / 2) ∧
        ∀ u : Nat → Bool, s.Holds u → Canon u t (P.cur act) → ∃ u' : Nat → Bool, (∀ x < s.n, u' x = u x) ∧ s1.Holds u' ∧ Canon u' t1 (P.cur act') := by
      by_cases he : lits = []
      · rw [if_pos he]
        rw [he, List.append_nil] at hp
        exact ⟨t, s, rfl, Ext.refl _, (h.built hh).perm hp, h.inc, h.join hh, hh, h.fresh hh, fun u hu hcu => ⟨u, fun _ _ => rfl, hu, hcu.perm hp⟩⟩
      · rw [if_neg he]
        have hb : Below s.n lits := fun l hl => Nat.lt_of_lt_of_le (P.cur_below act' 0 l (hp.mem_iff.1 (List.mem_append_right _ hl))) h.ext.n
        obtain ⟨t1, s1, e1, e2, e3, e4, e5, e6, e7⟩ := join_spec (rhs := lb + 1) h.inc (h.join hh) (h.built hh) hb he (Nat.succ_ne_zero lb)
        refine ⟨t1, s1, e1, e2, e3.perm hp, e4, e5, e6 hh, fun l hl => ?_, fun u hu hcu => ?_⟩
        · have : l ∈ (t.joinLits s lits (lb + 1)).1.out := by rw [e1]; exact hl
          exact Nat.le_trans h.ext.n (joinLits_out l this)
        · obtain ⟨u', g1, g2, g3⟩ := e7 u hu hcu
          exact ⟨u', g1, g2, g3.perm hp⟩
    obtain ⟨t1, s1, j1, j2, j3, j4, j5, j6, j7, j8⟩ := J
    obtain ⟨t', s', e1, e2, e3, e4, e5, e6, e7, e8, _, e9, e10⟩ := update_inc_spec (rhs := lb + 1) j4 j3 hl
    have hr : t.incUpdate s lits (lb + 1) = some (t', s', (t1.out.drop (lb + 1)).map neg) := by
      unfold Tot.incUpdate
      split
      · rename_i hl0
        rw [if_pos hl0] at j1
        injection j1 with a b
        subst a b
        exact e1
      · rename_i hl0
        rw [if_neg hl0] at j1
        rw [j1]; exact e1
    have hh' : t'.has = true := e7.trans j6
    refine ⟨_, _, _, hr, e5, h.ext.trans (j2.trans e2), fun e => (by rw [hh'] at e; cases e), fun _ => e6.trans j5, fun _ => e4, fun _ => by rw [e8]; exact j7, fun _ => e9,
      fun e => (by rw [hh'] at e; cases e), fun v hv ht => ?_, by rw [if_pos hh', e8]⟩
    obtain ⟨v1, g1, g2, g3⟩ := h.canon v hv ht
    obtain ⟨v2, f1, f2, f3⟩ := j8 v1 g2 (g3 hh)
    obtain ⟨k1, k2⟩ := e10 v2 f2 f3
    exact ⟨v2, fun x hx => by rw [f1 x (Nat.lt_of_lt_of_le hx h.ext.n), g1 x hx], k1, fun _ => k2⟩
  · have hf : t.has = false := by simpa using hh
    rw [if_pos hf]
    obtain ⟨hz, hj, hs⟩ := h.start hf
    by_cases hne : lb + 1 ≠ (P.cur act').length
    · rw [if_pos hne]
      have ho : t.old = [] := by unfold Tot.old; rw [hz]; simp
      obtain ⟨b1, b2, b3, _, b4, b5, b6, b7, b8⟩ := build_spec (t := t) (s := s) (lits := P.cur act') (rhs := lb + 1) (by omega) (fun e => by rw [h.inc] at e; exact nomatch e.1) (fun e => hne e.1)
        (by rw [ho, hs]; exact ⟨Prob.relaxed_wf hw 0, fun z hz => (nomatch hz), fun z hz => (nomatch hz)⟩) (by rw [hs]; exact P.cur_below _ 0)
      have bo := build_out (t := t) (s := s) (lits := P.cur act') (rhs := lb + 1)
      obtain ⟨b, hb⟩ : ∃ b, t.build s (P.cur act') (lb + 1) = b := ⟨_, rfl⟩
      rw [hb] at b1 b2 b3 b4 b5 b6 b7 b8 bo ⊢
      obtain ⟨t', s', e1, e2, e3, e4, e5, e6, e7, e8, _, e9, e10⟩ := update_inc_spec (rhs := lb + 1) (b3.trans h.inc) b5 hl
      have hh' : t'.has = true := e7.trans b1
      refine ⟨_, _, _, by unfold Tot.incUpdate; rw [if_pos rfl]; exact e1, e5, h.ext.trans (b4.trans e2), fun e => (by rw [hh'] at e; cases e), fun _ => e6.trans b2, fun _ => e4,
        fun _ => by rw [e8]; exact fun l hl => Nat.le_trans h.ext.n (bo l hl), fun _ => e9, fun e => (by rw [hh'] at e; cases e), fun v hv ht => ?_, by rw [if_pos hh', e8]⟩
      obtain ⟨v1, g1, g2, _⟩ := h.canon v hv ht
      obtain ⟨v2, f1, f2, f3⟩ := b8 v1 g2 (by rw [ho]; exact fun z hz => nomatch hz)
      obtain ⟨k1, k2⟩ := e10 v2 f2 f3
      exact ⟨v2, fun x hx => by rw [f1 x (Nat.lt_of_lt_of_le hx h.ext.n), g1 x hx], k1, fun _ => k2⟩
    · rw [if_neg hne]
      refine ⟨_, _, _, rfl, h.inc, h.ext, fun _ => ⟨hz, hj, hs⟩, fun e => absurd e hh, fun e => absurd e hh, fun e => absurd e hh, fun e => absurd e hh, fun _ => by omega, fun v hv ht => ?_,
        by rw [if_neg hh]⟩
      obtain ⟨v1, g1, g2, _⟩ := h.canon v hv ht
      exact ⟨v1, g1, g2, fun e => absurd e hh⟩

theorem msu3Iter_right {P : Prob} (hw : P.WF) (h1 : P.Unit) {O : Orc} (hO : O.Ok) (H : Nat → Bool) :
    ∀ (f k : Nat) (t : Tot) (s : Sol) (as : List Nat) (act : Nat → Bool) (nb lb ub : Nat) (u : Nat → Bool),
    (nb = 0 → t = { inc := true } ∧ s = P.relaxed 0 ∧ as = [] ∧ (∀ i, act i = false) ∧ lb = 0 ∧ P.soft.length + 2 ≤ f) →
    (nb ≠ 0 → MsuI P act lb t s as ∧ MsuLow P act lb ∧ Best P lb ub u ∧ ub + 1 ≤ f + lb) →
    ∃ r, msu3Iter P O H f k t s as act nb lb ub u = some r ∧ Right P O H r := by
  intro f
  induction f with
  | zero =>
    intro k t s as act nb lb ub u h0 hn
    by_cases hz : nb = 0
    · exact absurd (h0 hz).2.2.2.2.2 (by omega)
    · obtain ⟨_, _, h3, h4⟩ := hn hz
      have := h3.lower u h3.holds
      rw [h3.cost] at this; omega
  | succ f ih =>
    intro k t s as act nb lb ub u h0 hn
    rw [msu3Iter]
    have ho := hO k s as
    split
    · rename_i hm
      exact ⟨_, rfl, .inl ⟨_, _, _, hm⟩⟩
    · rename_i m hm
      rw [hm] at ho
      split
      · rename_i hz
        obtain ⟨htt, hs, ha, hact, hl, hf⟩ := h0 hz
        split
        · rename_i hm
          exact ⟨_, rfl, .inr ⟨_, hm⟩⟩
        · subst hl ha hs htt
          have hact' : act = fun _ => false := funext hact
          subst hact'
          refine ih _ _ _ _ _ _ _ _ _ (fun e => by omega) (fun _ => ⟨⟨rfl, Ext.refl _, fun _ => ⟨rfl, rfl, rfl⟩, fun e => (nomatch e), fun e => (nomatch e), fun e => (nomatch e), fun e => (nomatch e),
            fun _ => ?_, fun v hv ht => ⟨v, fun _ _ => rfl, ht.relaxed hv 0, fun e => (nomatch e)⟩, by rw [P.rest_none]; simp⟩,
            fun _ _ _ => Nat.zero_le _, ⟨(Prob.relaxed_sound ho.1).1, rfl, fun _ _ => Nat.zero_le _⟩, ?_⟩)
          · unfold Prob.cur; simp
          · have := h1.cost_le_length hw m
            rw [Prob.obj_length] at this; omega
      · rename_i hz
        obtain ⟨h2, _, h3, _⟩ := hn hz
        exact ⟨_, rfl, h2.msu.sat h1 h3.lower ho.1 ho.2⟩
    · rename_i core hm
      rw [hm] at ho
      split
      · rename_i hz
        obtain ⟨_, hs, ha, _⟩ := h0 hz
        refine ⟨_, rfl, fun u hu => ?_⟩
        obtain ⟨v, _, hv, ht, _⟩ := Prob.exists_tight hw hu
        obtain ⟨l, hl, _⟩ := ho.2.2 v (by rw [hs]; exact ht.relaxed hv 0)
        have := ho.1 l hl
        rw [ha] at this; cases this
      · rename_i hz
        obtain ⟨h2, h2', h3, h4⟩ := hn hz
        have hlow := h2.msu.unsat (act' := fun i => act i || core.any fun l => decide (P.coreIdx l = some i)) h2' ho.1 ho.2.2 (fun i hi => by rw [hi]; rfl) (fun l hl i hi he => by
          rw [Bool.or_eq_true]
          refine .inr (List.any_eq_true.2 ⟨l, hl, ?_⟩)
          rw [he, Prob.coreIdx_lit hi]; simp)
        have hb : Best P (lb + 1) ub u := ⟨h3.holds, h3.cost, hlow.lower hw h1⟩
        split
        · rename_i he
          rw [he] at hb
          exact ⟨_, rfl, hb.opt⟩
        · obtain ⟨v, _, hv, ht, _⟩ := Prob.exists_tight hw h3.holds
          split
          · rename_i he
            obtain ⟨v', _, g2, _⟩ := h2.canon v hv ht
            obtain ⟨l, hl, _⟩ := ho.2.2 v' g2
            rw [he] at hl; cases hl
          · split
            · rename_i hm
              exact ⟨_, rfl, .inr ⟨_, hm⟩⟩
            · obtain ⟨t', s', as', e1, e2⟩ := msuI_step hw h2 ho.1 ho.2.1 rfl (Nat.le_trans (hlow v hv ht) (cnt_le _ _))
              dsimp only
              rw [e1]
              exact ih _ _ _ _ _ _ _ _ _ (fun e => absurd e hz) (fun _ => ⟨e2, hlow, hb, by omega⟩)

/-- C30 for MSU3: with either incremental strategy, for every behaviour of the SAT solver and the handler, the search ends and its result is right -/
theorem msu3_right {P : Prob} (hw : P.WF) (h1 : P.Unit) {O : Orc} (hO : O.Ok) (H : Nat → Bool) (inc : Bool) {f : Nat} (hf : P.soft.length + 2 ≤ f) :
    ∃ r, msu3 inc P O H f = some r ∧ Right P O H r := by
  unfold msu3
  split
  · exact msu3Iter_right hw h1 hO H f 0 _ _ _ _ 0 0 _ _ (fun _ => ⟨rfl, rfl, rfl, fun _ => rfl, rfl, hf⟩) (fun e => absurd rfl e)
  · exact msu3None_right hw h1 hO H f 0 _ _ _ _ 0 0 _ _ rfl (fun _ => ⟨rfl, rfl, fun _ => rfl, rfl, hf⟩) (fun e => absurd rfl e)

end Verif.MaxAlg
