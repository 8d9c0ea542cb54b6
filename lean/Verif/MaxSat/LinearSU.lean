import Verif.MaxSat.LinearUS

/-! # LinearSU (alg_linear_su.go): unweighted problems and problems with lexicographic weights -/

namespace Verif.MaxAlg

open Verif.MaxSat (litVal clauseVal costC)

/-! ## model -/

/-- alg_linear_su.go:126-169 `normalSearch` for unweighted problems -/
def suNormal (P : Prob) (O : Orc) (H : Nat → Bool) : Nat → Nat → Tot → Sol → Nat → Nat → (Nat → Bool) → Option Res
  | 0, _, _, _, _, _, _ => none
  | f + 1, k, t, s, nb, ub, u => match O k s [] with
    | .cancel => some .cancel
    | .sat m =>
      if costC m P.soft = 0 then some (.opt (costC m P.soft) m)
      else
        (if t.has = false then t.encode s P.obj (costC m P.soft - 1) else (t.update s (costC m P.soft - 1)).map fun r => (r.1, r.2.1)).bind fun r =>
          if H k = false then some .cancel else suNormal P O H f (k + 1) r.1 r.2 (nb + 1) (costC m P.soft) m
    | .unsat _ => if nb = 0 then some .unsat else some (.opt ub u)

/-- algorithm.go:170-194 `computeCostModel` for a weight: a soft clause of another weight is skipped at its first literal; one without literals is counted -/
def costAt (u : Nat → Bool) (w : Nat) : List (List Nat × Nat) → Nat
  | [] => 0
  | (c, k) :: S => (if c = [] then k else if k ≠ w then 0 else if clauseVal u c then 0 else k) + costAt u w S

/-- alg_linear_su.go:197-204: the relaxation literals of the soft clauses of a weight -/
def Prob.objAt (P : Prob) (w : Nat) : List Nat := (P.objW.filter fun x => decide (x.2 = w)).map (·.1)

/-- alg_linear_su.go:205-207: the bounds of the higher weights -/
def encodeAll : Tot → Sol → List (List Nat × Nat) → Option (Tot × Sol)
  | t, s, [] => some (t, s)
  | t, s, F :: Fs => (t.encode s F.1 F.2).bind fun r => encodeAll r.1 r.2 Fs

/-- alg_linear_su.go:194 `rebuildBMO` -/
def Prob.rebuildBmo (P : Prob) (t : Tot) (Fs : List (List Nat × Nat)) (w : Nat) : Option (Tot × Sol) := encodeAll t (P.relaxed w) Fs

/-- alg_linear_su.go:69-123, the loop of `bmoSearch`: `w` is `currentWeight`, `rest` are the weights after it in `orderWeights` (empty for `minWeight`), `Fs` are `functions` and `weights`,
`loc` is `localCost` -/
def suBmo (P : Prob) (O : Orc) (H : Nat → Bool) : Nat → Nat → Nat → List Nat → Tot → Sol → List (List Nat × Nat) → Nat → Nat → Nat → Nat → (Nat → Bool) → Option Res
  | 0, _, _, _, _, _, _, _, _, _, _, _ => none
  | f + 1, k, w, rest, t, s, Fs, loc, nb, lb, ub, u => match O k s [] with
    | .cancel => some .cancel
    | .sat m =>
      let ub' := if rest = [] then costAt m w P.soft + lb else ub
      let u' := if rest = [] then m else u
      if rest = [] ∧ 0 < costAt m w P.soft ∧ H k = false then some .cancel
      else if costAt m w P.soft = 0 then match rest with
        | [] => some (.opt ub' u')
        | w' :: rest' => (P.rebuildBmo t (Fs ++ [(P.objAt w, 0)]) w').bind fun r => suBmo P O H f (k + 1) w' rest' r.1 r.2 (Fs ++ [(P.objAt w, 0)]) 0 (nb + 1) lb ub' u'
      else
        (if loc = 0 then t.encode s (P.objAt w) (costAt m w P.soft / w - 1) else (t.update s (costAt m w P.soft / w - 1)).map fun r => (r.1, r.2.1)).bind fun r =>
          suBmo P O H f (k + 1) w rest r.1 r.2 Fs (costAt m w P.soft) (nb + 1) lb ub' u'
    | .unsat _ => match rest with
      | [] => if nb = 0 then some .unsat else some (.opt ub u)
      | w' :: rest' => if H k = false then some .cancel
        else (P.rebuildBmo t (Fs ++ [(P.objAt w, loc / w)]) w').bind fun r =>
          suBmo P O H f (k + 1) w' rest' r.1 r.2 (Fs ++ [(P.objAt w, loc / w)]) 0 nb (lb + loc) ub u

/-! ## proofs: bounds on the literals of one list -/

def leOpt (c : Nat) : Option Nat → Prop
  | none => True
  | some b => c ≤ b

/-- the solver at a level: clauses of at least weight `w`, the bounds `Fs`, and the bound `b` on the number of true literals of `L` -/
structure Lv (P : Prob) (w : Nat) (L : List Nat) (Fs : List (List Nat × Nat)) (b : Option Nat) (t : Tot) (s : Sol) : Prop where
  inc : t.inc = false
  ext : Ext (P.relaxed w) s
  wf : s.WF
  sound : ∀ u, s.Holds u → (∀ F ∈ Fs, cnt u F.1 ≤ F.2) ∧ leOpt (cnt u L) b
  complete : ∀ v, P.Holds v → P.Tight v → (∀ F ∈ Fs, cnt v F.1 ≤ F.2) → leOpt (cnt v L) b →
    ∃ v' : Nat → Bool, (∀ x < (P.relaxed w).n, v' x = v x) ∧ s.Holds v' ∧ (b ≠ none → t.has = true → Canon v' t L)
  built : ∀ c, b = some c → t.has = true → Counts t s L ∧ ∀ z ∈ t.zs, c ≤ z.rhs
  pure : ∀ c, b = some c → t.has = false → c = 0

theorem encodeAll_spec : ∀ (Fs : List (List Nat × Nat)) (t : Tot) (s : Sol), t.inc = false → s.WF → (∀ F ∈ Fs, Below s.n F.1) →
    ∃ t' s', encodeAll t s Fs = some (t', s') ∧ Ext s s' ∧ s'.WF ∧ t'.inc = false ∧ (∀ u : Nat → Bool, s'.Holds u → ∀ F ∈ Fs, cnt u F.1 ≤ F.2) ∧
    ∀ u : Nat → Bool, s.Holds u → (∀ F ∈ Fs, cnt u F.1 ≤ F.2) → ∃ u' : Nat → Bool, (∀ x < s.n, u' x = u x) ∧ s'.Holds u'
  | [], t, s, hi, hw, _ => ⟨t, s, rfl, Ext.refl _, hw, hi, fun _ _ _ h => (nomatch h), fun u hu _ => ⟨u, fun _ _ => rfl, hu⟩⟩
  | F :: Fs, t, s, hi, hw, hb => by
    obtain ⟨t1, s1, e1, e2, e3, e4, e5, _, e7⟩ := encode_spec (rhs := F.2) hi hw (hb F List.mem_cons_self)
    obtain ⟨t2, s2, f1, f2, f3, f4, f5, f6⟩ := encodeAll_spec Fs t1 s1 e4 e3 fun G hG => (hb G (List.mem_cons_of_mem _ hG)).mono e2.n
    refine ⟨t2, s2, by rw [encodeAll, e1]; exact f1, e2.trans f2, f3, f4, fun u hu G hG => ?_, fun u hu hF => ?_⟩
    · rcases List.mem_cons.1 hG with rfl | hG
      · exact e5 u (f2.holds hu)
      · exact f5 u hu G hG
    · obtain ⟨u1, g1, g2, _⟩ := e7 u hu (hF F List.mem_cons_self)
      obtain ⟨u2, g3, g4⟩ := f6 u1 g2 fun G hG => by
        rw [cnt_congr fun l hl => g1 _ (hb G (List.mem_cons_of_mem _ hG) l hl)]
        exact hF G (List.mem_cons_of_mem _ hG)
      exact ⟨u2, fun x hx => by rw [g3 x (Nat.lt_of_lt_of_le hx e2.n), g1 x hx], g4⟩

theorem Lv.start {P : Prob} (hw : P.WF) {t : Tot} (hi : t.inc = false) {Fs : List (List Nat × Nat)} {w : Nat} (hb : ∀ F ∈ Fs, Below (P.relaxed w).n F.1) (L : List Nat) :
    ∃ t' s', P.rebuildBmo t Fs w = some (t', s') ∧ Lv P w L Fs none t' s' := by
  obtain ⟨t', s', e1, e2, e3, e4, e5, e6⟩ := encodeAll_spec Fs t (P.relaxed w) hi (Prob.relaxed_wf hw w) hb
  refine ⟨t', s', e1, e4, e2, e3, fun u hu => ⟨e5 u hu, trivial⟩, fun v hv ht hF _ => ?_, fun c h => (nomatch h), fun c h => (nomatch h)⟩
  obtain ⟨v', g1, g2⟩ := e6 v (ht.relaxed hv w) hF
  exact ⟨v', g1, g2, fun h => absurd rfl h⟩

/-- the first bound -/
theorem Lv.encode {P : Prob} {w : Nat} {L : List Nat} {Fs : List (List Nat × Nat)} {t : Tot} {s : Sol} (h : Lv P w L Fs none t s) (hL : Below (P.relaxed w).n L) {c : Nat} (hc : c < L.length) :
    ∃ t' s', t.encode s L c = some (t', s') ∧ Lv P w L Fs (some c) t' s' := by
  obtain ⟨t', s', e1, e2, e3, e4, e5, e6, e7⟩ := encode_spec (rhs := c) h.inc h.wf (hL.mono h.ext.n)
  refine ⟨t', s', e1, e4, h.ext.trans e2, e3, fun u hu => ⟨(h.sound u (e2.holds hu)).1, e5 u hu⟩, fun v hv ht hF hb => ?_, fun c' hc' hh => ?_, fun c' hc' hh => ?_⟩
  · obtain ⟨v1, g1, g2, _⟩ := h.complete v hv ht hF trivial
    obtain ⟨v2, g3, g4, g5⟩ := e7 v1 g2 (by rw [cnt_congr fun l hl => g1 _ (hL l hl)]; exact hb)
    exact ⟨v2, fun x hx => by rw [g3 x (Nat.lt_of_lt_of_le hx h.ext.n), g1 x hx], g4, fun _ => g5⟩
  · cases hc'
    exact ⟨(e6 hh).1, fun z hz => Nat.le_of_eq ((e6 hh).2 z hz).symm⟩
  · cases hc'
    refine Classical.byContradiction fun h0 => ?_
    have : (t.encode s L c).isSome = true ∧ ∀ r, t.encode s L c = some r → r.1.has = true := by
      unfold Tot.encode
      have hb : (t.build s L c).1.has = true ∧ (t.build s L c).1.inc = false := by
        unfold Tot.build
        rw [if_neg h0, if_neg (by omega), if_neg (by omega)]
        exact ⟨rfl, h.inc⟩
      rw [if_pos hb.1]
      unfold Tot.update
      rw [if_pos hb.2]
      refine ⟨rfl, fun r hr => ?_⟩
      injection hr with hr
      rw [← hr]; exact hb.1
    have := this.2 _ e1
    rw [hh] at this; cases this

/-- a smaller bound -/
theorem Lv.update {P : Prob} {w : Nat} {L : List Nat} {Fs : List (List Nat × Nat)} {t : Tot} {s : Sol} {b : Nat} (h : Lv P w L Fs (some b) t s) (hh : t.has = true) (hL : Below (P.relaxed w).n L)
    {c : Nat} (hc : c ≤ b) : ∃ s', t.update s c = some (t, s', []) ∧ Lv P w L Fs (some c) t s' := by
  obtain ⟨b1, b2⟩ := h.built b rfl hh
  obtain ⟨s', e1, e2, e3, e4, e5, e6⟩ := update_none_spec (rhs := c) h.inc b1 fun z hz => Nat.le_trans hc (b2 z hz)
  refine ⟨s', e1, h.inc, h.ext.trans e2, e4.pre.swf, fun u hu => ⟨(h.sound u (e2.holds hu)).1, e5 u hu⟩, fun v hv ht hF hb => ?_, fun c' hc' _ => ?_, fun c' _ hf => ?_⟩
  · obtain ⟨v1, g1, g2, g3⟩ := h.complete v hv ht hF (Nat.le_trans hb hc)
    exact ⟨v1, g1, e6 v1 g2 (g3 (by simp) hh) (by rw [cnt_congr fun l hl => g1 _ (hL l hl)]; exact hb), fun _ => g3 (by simp)⟩
  · cases hc'
    exact ⟨e4, fun z hz => Nat.le_trans hc (b2 z hz)⟩
  · rw [hh] at hf; cases hf

/-! ## unweighted problems -/

theorem suNormal_right {P : Prob} (hw : P.WF) (h1 : P.Unit) {O : Orc} (hO : O.Ok) (H : Nat → Bool) : ∀ (f k : Nat) (t : Tot) (s : Sol) (nb ub : Nat) (u : Nat → Bool),
    (nb = 0 → Lv P 1 P.obj [] none t s ∧ t.has = false ∧ P.soft.length + 2 ≤ f) →
    (nb ≠ 0 → Lv P 1 P.obj [] (some (ub - 1)) t s ∧ P.Holds u ∧ costC u P.soft = ub ∧ ub ≠ 0 ∧ ub + 1 ≤ f) →
    ∃ r, suNormal P O H f k t s nb ub u = some r ∧ Right P O H r := by
  have hge : ∀ c ∈ P.soft, 1 ≤ c.2 := fun c hc => Nat.le_of_eq (h1 c hc).symm
  have hle : ∀ {w : Nat} {u : Nat → Bool}, (∀ c ∈ P.soft, w ≤ c.2) → (P.relaxed w).Holds u → costC u P.soft ≤ cnt u P.obj := fun hg hu => by
    have := Prob.cost_le hg hu
    rw [wsum_unit _ h1.objW] at this; exact this
  have hlow : ∀ {ub : Nat} {t : Tot} {s : Sol}, Lv P 1 P.obj [] (some (ub - 1)) t s → ub ≠ 0 → (∀ u : Nat → Bool, ¬ s.Holds u) → ∀ v, P.Holds v → ub ≤ costC v P.soft := by
    intro ub t s h h0 hu v hv
    refine Classical.byContradiction fun hlt => ?_
    obtain ⟨v1, _, g2, g3, g4⟩ := Prob.exists_tight hw hv
    have : cnt v1 P.obj ≤ ub - 1 := by rw [← h1.cost_eq g3, g4]; omega
    obtain ⟨v2, _, g6, _⟩ := h.complete v1 g2 g3 (fun F hF => nomatch hF) this
    exact hu v2 g6
  intro f
  induction f with
  | zero =>
    intro k t s nb ub u h0 hn
    by_cases hz : nb = 0
    · have := (h0 hz).2.2; omega
    · have := (hn hz).2.2.2; omega
  | succ f ih =>
    intro k t s nb ub u h0 hn
    rw [suNormal]
    have ho := hO k s []
    split
    · rename_i hm
      exact ⟨_, rfl, .inl ⟨_, _, _, hm⟩⟩
    · rename_i m hm
      rw [hm] at ho
      have key : P.Holds m := by
        by_cases hz : nb = 0
        · exact (Prob.relaxed_sound ((h0 hz).1.ext.holds ho.1)).1
        · exact (Prob.relaxed_sound ((hn hz).1.ext.holds ho.1)).1
      split
      · rename_i hc
        exact ⟨_, rfl, key, rfl, fun v _ => by rw [hc]; exact Nat.zero_le _⟩
      · rename_i hc
        have hlen := h1.cost_le_length hw m
        have hlen' := hlen
        rw [Prob.obj_length] at hlen'
        have step : ∃ t' s', (if t.has = false then t.encode s P.obj (costC m P.soft - 1) else (t.update s (costC m P.soft - 1)).map fun r => (r.1, r.2.1)) = some (t', s') ∧
            Lv P 1 P.obj [] (some (costC m P.soft - 1)) t' s' ∧ costC m P.soft + 1 ≤ f := by
          by_cases hz : nb = 0
          · obtain ⟨h2, h3, h4⟩ := h0 hz
            rw [if_pos h3]
            obtain ⟨t', s', e1, e2⟩ := h2.encode (P.obj_below 1) (c := costC m P.soft - 1) (by omega)
            exact ⟨t', s', e1, e2, by omega⟩
          · obtain ⟨h2, _, _, _, h6⟩ := hn hz
            have hle' := Nat.le_trans (hle hge (h2.ext.holds ho.1)) (h2.sound m ho.1).2
            by_cases hh : t.has = true
            · rw [if_neg (by rw [hh]; simp)]
              obtain ⟨s', e1, e2⟩ := h2.update hh (P.obj_below 1) (c := costC m P.soft - 1) (by omega)
              exact ⟨t, s', by rw [e1]; rfl, e2, by omega⟩
            · have := h2.pure _ rfl (by simpa using hh)
              omega
        obtain ⟨t', s', e1, e2, e3⟩ := step
        rw [e1]
        show ∃ r, (if H k = false then some Res.cancel else _) = some r ∧ _
        split
        · rename_i hH
          exact ⟨_, rfl, .inr ⟨_, hH⟩⟩
        · exact ih _ _ _ _ _ _ (fun e => absurd e (Nat.succ_ne_zero nb)) fun _ => ⟨e2, key, rfl, hc, e3⟩
    · rename_i core hm
      rw [hm] at ho
      have hu : ∀ u : Nat → Bool, ¬ s.Holds u := fun u hu => by
        obtain ⟨l, hl, _⟩ := ho.2.2 u hu
        exact nomatch ho.1 l hl
      split
      · rename_i hz
        refine ⟨_, rfl, fun v hv => ?_⟩
        obtain ⟨v1, _, g2, g3, _⟩ := Prob.exists_tight hw hv
        obtain ⟨v2, _, g6, _⟩ := (h0 hz).1.complete v1 g2 g3 (fun F hF => nomatch hF) trivial
        exact hu v2 g6
      · rename_i hz
        obtain ⟨h2, h3, h4, h5, _⟩ := hn hz
        exact ⟨_, rfl, h3, h4, hlow h2 h5 hu⟩

/-! ## lexicographic weights -/

/-- weight of the true relaxation literals above `w` -/
def Prob.hiW (P : Prob) (w : Nat) (u : Nat → Bool) : Nat := wsum u (P.objW.filter fun x => decide (w < x.2))

/-- weight of all soft clauses below `w` -/
def Prob.loT (P : Prob) (w : Nat) : Nat := ((P.objW.filter fun x => decide (x.2 < w)).map (·.2)).sum

theorem wsum_le_total (u : Nat → Bool) : ∀ xs : List (Nat × Nat), wsum u xs ≤ (xs.map (·.2)).sum
  | [] => Nat.le_refl _
  | (l, w) :: xs => by
    rw [wsum, List.map_cons, List.sum_cons]
    have := wsum_le_total u xs
    split <;> dsimp only <;> omega

theorem wsum_split (u : Nat → Bool) (w : Nat) : ∀ xs : List (Nat × Nat),
    wsum u xs = wsum u (xs.filter fun x => decide (w < x.2)) + w * cnt u ((xs.filter fun x => decide (x.2 = w)).map (·.1)) + wsum u (xs.filter fun x => decide (x.2 < w))
  | [] => by simp [wsum, cnt]
  | (l, k) :: xs => by
    have ih := wsum_split u w xs
    unfold cnt at ih ⊢
    rw [wsum, ih, List.filter_cons, List.filter_cons, List.filter_cons]
    rcases Nat.lt_trichotomy k w with h | h | h
    · simp [show ¬ w < k by omega, show ¬ k = w by omega, h, wsum]; omega
    · subst h
      simp only [Nat.lt_irrefl, decide_false, decide_true, if_true, Bool.false_eq_true, if_false, List.map_cons, List.countP_cons]
      by_cases hl : litVal u l = true
      · simp [hl, Nat.mul_add]; omega
      · simp [hl]
    · simp [show ¬ k < w by omega, show ¬ k = w by omega, h, wsum]; omega

/-- no weights between two neighbours -/
theorem hi_next (u : Nat → Bool) {w w' : Nat} (hlt : w' < w) : ∀ xs : List (Nat × Nat), (∀ x ∈ xs, w ≤ x.2 ∨ x.2 ≤ w') →
    wsum u (xs.filter fun x => decide (w' < x.2)) = wsum u (xs.filter fun x => decide (w < x.2)) + w * cnt u ((xs.filter fun x => decide (x.2 = w)).map (·.1))
  | [], _ => by simp [wsum, cnt]
  | (l, k) :: xs, h => by
    have ih := hi_next u hlt xs fun x hx => h x (List.mem_cons_of_mem _ hx)
    have h0 : w ≤ k ∨ k ≤ w' := h (l, k) List.mem_cons_self
    unfold cnt at ih ⊢
    rw [List.filter_cons, List.filter_cons, List.filter_cons]
    rcases Nat.lt_trichotomy k w with h | h | h
    · simp [show ¬ w < k by omega, show ¬ k = w by omega, show ¬ w' < k by omega, ih]
    · subst h
      simp only [Nat.lt_irrefl, decide_false, decide_true, if_true, Bool.false_eq_true, if_false, List.map_cons, List.countP_cons, hlt, wsum, ih]
      by_cases hl : litVal u l = true
      · simp [hl, Nat.mul_add]; omega
      · simp [hl]
    · simp [show ¬ k = w by omega, show w' < k by omega, h, wsum, ih]; omega

theorem lo_next {w w' : Nat} (hlt : w' < w) : ∀ xs : List (Nat × Nat), (∀ x ∈ xs, w ≤ x.2 ∨ x.2 ≤ w') →
    ((xs.filter fun x => decide (x.2 < w)).map (·.2)).sum = w' * ((xs.filter fun x => decide (x.2 = w')).map (·.1)).length + ((xs.filter fun x => decide (x.2 < w')).map (·.2)).sum
  | [], _ => by simp
  | (l, k) :: xs, h => by
    have ih := lo_next hlt xs fun x hx => h x (List.mem_cons_of_mem _ hx)
    have h0 : w ≤ k ∨ k ≤ w' := h (l, k) List.mem_cons_self
    rw [List.filter_cons, List.filter_cons, List.filter_cons]
    rcases Nat.lt_trichotomy k w' with h | h | h
    · simp [show k < w by omega, show ¬ k = w' by omega, h]; simp at ih; omega
    · subst h
      simp [hlt, Nat.mul_add]; simp at ih; omega
    · simp [show ¬ k = w' by omega, show ¬ k < w by omega, show ¬ k < w' by omega]; simpa using ih

theorem costAt_congr {u v : Nat → Bool} {w : Nat} : ∀ {S : List (List Nat × Nat)}, (∀ c ∈ S, ∀ l ∈ c.1, u (l / 2) = v (l / 2)) → costAt u w S = costAt v w S
  | [], _ => rfl
  | (c, k) :: S, h => by
    rw [costAt, costAt, clauseVal_congr (h (c, k) List.mem_cons_self), costAt_congr fun c hc => h c (List.mem_cons_of_mem _ hc)]

/-- no soft clause is empty -/
def Prob.NonEmpty (P : Prob) : Prop := ∀ c ∈ P.soft, c.1 ≠ []

theorem costAt_eq (u : Nat → Bool) (n w : Nat) : ∀ (S : List (List Nat × Nat)) (k : Nat), (∀ c ∈ S, c.1 ≠ []) → (∀ ci ∈ S.zipIdx k, litVal u (2 * (n + ci.2)) = !clauseVal u ci.1.1) →
    costAt u w S = w * cnt u ((((S.zipIdx k).map fun ci => (2 * (n + ci.2), ci.1.2)).filter fun x => decide (x.2 = w)).map (·.1))
  | [], _, _, _ => by simp [costAt, cnt]
  | (c, j) :: S, k, h0, h => by
    have ih := costAt_eq u n w S (k + 1) (fun c hc => h0 c (List.mem_cons_of_mem _ hc)) fun ci hci => h ci (by rw [List.zipIdx_cons]; exact List.mem_cons_of_mem _ hci)
    have hk : litVal u (2 * (n + k)) = !clauseVal u c := h ((c, j), k) (by rw [List.zipIdx_cons]; exact List.mem_cons_self)
    rw [List.zipIdx_cons, List.map_cons, costAt, List.filter_cons, ih, if_neg (h0 (c, j) List.mem_cons_self)]
    unfold cnt
    by_cases hj : j = w
    · subst hj
      simp only [decide_true, if_true, List.map_cons, List.countP_cons, hk, not_true_eq_false, ne_eq, if_false]
      cases clauseVal u c <;> simp [Nat.mul_add]; omega
    · simp [hj]

theorem Prob.objAt_below (P : Prob) (w v : Nat) : Below (P.relaxed v).n (P.objAt w) := by
  intro l hl
  obtain ⟨x, hx, rfl⟩ := List.mem_map.1 hl
  exact (Prob.objW_lt (List.mem_of_mem_filter hx)).2

/-- the exact relaxation literals are below those of any model of the relaxed clauses -/
theorem Prob.tighten_le {P : Prob} (hw : P.WF) {w : Nat} {u : Nat → Bool} (hu : (P.relaxed w).Holds u) {w' : Nat} (hle : w ≤ w') : cnt (P.tighten u) (P.objAt w') ≤ cnt u (P.objAt w') := by
  unfold cnt
  refine List.countP_mono_left fun l hl ht => ?_
  obtain ⟨x, hx, rfl⟩ := List.mem_map.1 hl
  obtain ⟨hx, he⟩ := List.mem_filter.1 hx
  obtain ⟨ci, hci, rfl⟩ := List.mem_map.1 hx
  obtain ⟨h1, h2⟩ := mem_zipIdx_lt hci
  have ht : litVal (P.tighten u) (2 * (P.n + ci.2)) = true := ht
  rw [Prob.tighten_tight hw u ci hci, clauseVal_congr (w := u) fun l hl => Prob.tighten_old (hw.soft _ (List.mem_of_getElem? h2) l hl)] at ht
  have he : ci.1.2 = w' := of_decide_eq_true he
  exact (Prob.relaxed_sound hu).2 ci hci (by omega) (by simpa using ht)

/-- the assignments that are best for the higher weights -/
def Left (P : Prob) (w : Nat) (Fs : List (List Nat × Nat)) (lb : Nat) (v : Nat → Bool) : Prop := P.hiW w v = lb ∧ ∀ F ∈ Fs, cnt v F.1 ≤ F.2

/-- what is known at the start of a level -/
structure Lex (P : Prob) (w : Nat) (rest : List Nat) (Fs : List (List Nat × Nat)) (lb : Nat) : Prop where
  sorted : (w :: rest).Pairwise (· > ·)
  mem : ∀ x ∈ P.objW, w < x.2 ∨ x.2 ∈ w :: rest
  bmo : ∀ y ∈ w :: rest, P.loT y ≤ y
  pos : ∀ y ∈ w :: rest, 0 < y
  funs : ∀ F ∈ Fs, ∃ w' > w, F.1 = P.objAt w'
  snd : ∀ u, (∀ F ∈ Fs, cnt u F.1 ≤ F.2) → P.hiW w u ≤ lb
  dom : ∀ v, P.Holds v → P.Tight v → Left P w Fs lb v ∨ lb + (w * (P.objAt w).length + P.loT w) ≤ costC v P.soft

theorem Prob.Tight.parts {P : Prob} {v : Nat → Bool} (h : P.Tight v) (w : Nat) :
    P.hiW w v + w * cnt v (P.objAt w) ≤ costC v P.soft ∧ costC v P.soft ≤ P.hiW w v + w * cnt v (P.objAt w) + P.loT w := by
  have := wsum_split v w P.objW
  rw [h.cost]
  have h2 := wsum_le_total v (P.objW.filter fun x => decide (x.2 < w))
  unfold Prob.hiW Prob.loT Prob.objAt
  omega

theorem cnt_mul_le (u : Nat → Bool) (w : Nat) (L : List Nat) : w * cnt u L ≤ w * L.length := Nat.mul_le_mul_left _ (cnt_le u L)

/-- a model at a level, with exact relaxation literals, is best for the higher weights -/
theorem Lex.model {P : Prob} (hw : P.WF) {w : Nat} {rest : List Nat} {Fs : List (List Nat × Nat)} {lb : Nat} (h : Lex P w rest Fs lb) {u : Nat → Bool} (hu : (P.relaxed w).Holds u)
    (hF : ∀ F ∈ Fs, cnt u F.1 ≤ F.2) : P.Holds (P.tighten u) ∧ P.Tight (P.tighten u) ∧ Left P w Fs lb (P.tighten u) ∧ costC (P.tighten u) P.soft = costC u P.soft := by
  have h1 : P.Holds (P.tighten u) := (Prob.holds_congr hw fun _ hx => Prob.tighten_old hx).2 (Prob.relaxed_sound hu).1
  have h2 := Prob.tighten_tight hw u
  have hF' : ∀ F ∈ Fs, cnt (P.tighten u) F.1 ≤ F.2 := fun F hm => by
    obtain ⟨w', hgt, he⟩ := h.funs F hm
    have := hF F hm
    rw [he] at this ⊢
    exact Nat.le_trans (Prob.tighten_le hw hu (Nat.le_of_lt hgt)) this
  refine ⟨h1, h2, ⟨?_, hF'⟩, Prob.cost_congr hw fun _ hx => Prob.tighten_old hx⟩
  have a := h.snd _ hF'
  rcases h.dom _ h1 h2 with hd | hd
  · exact hd.1
  · have b := (h2.parts w).2
    have c := cnt_mul_le (P.tighten u) w (P.objAt w)
    omega

theorem Lex.gap {P : Prob} {w w' : Nat} {rest : List Nat} {Fs : List (List Nat × Nat)} {lb : Nat} (h : Lex P w (w' :: rest) Fs lb) : w' < w ∧ ∀ x ∈ P.objW, w ≤ x.2 ∨ x.2 ≤ w' := by
  obtain ⟨s1, s2⟩ := List.pairwise_cons.1 h.sorted
  refine ⟨s1 w' List.mem_cons_self, fun x hx => ?_⟩
  rcases h.mem x hx with hm | hm
  · omega
  · rcases List.mem_cons.1 hm with e | hm
    · omega
    · rcases List.mem_cons.1 hm with e | hm
      · omega
      · have := (List.pairwise_cons.1 s2).1 _ hm
        omega

theorem Lex.left {P : Prob} {w w' : Nat} {rest : List Nat} {Fs : List (List Nat × Nat)} {lb q : Nat} (h : Lex P w (w' :: rest) Fs lb) {v : Nat → Bool} (hv : Left P w Fs lb v)
    (hq : cnt v (P.objAt w) = q) : Left P w' (Fs ++ [(P.objAt w, q)]) (lb + w * q) v := by
  refine ⟨?_, fun F hF => ?_⟩
  · have := hi_next v h.gap.1 P.objW h.gap.2
    have h2 := hv.1
    unfold Prob.hiW at h2 ⊢
    rw [this, h2]
    show lb + w * cnt v (P.objAt w) = _
    rw [hq]
  · rcases List.mem_append.1 hF with hF | hF
    · exact hv.2 F hF
    · rw [List.mem_singleton.1 hF]; exact Nat.le_of_eq hq

theorem Lex.next {P : Prob} {w w' : Nat} {rest : List Nat} {Fs : List (List Nat × Nat)} {lb q : Nat} (h : Lex P w (w' :: rest) Fs lb) (hql : q ≤ (P.objAt w).length)
    (hq : ∀ v, P.Holds v → P.Tight v → Left P w Fs lb v → q ≤ cnt v (P.objAt w)) : Lex P w' rest (Fs ++ [(P.objAt w, q)]) (lb + w * q) := by
  obtain ⟨s1, s2⟩ := List.pairwise_cons.1 h.sorted
  obtain ⟨hlt, hgap⟩ := h.gap
  have hi : ∀ u, P.hiW w' u = P.hiW w u + w * cnt u (P.objAt w) := fun u => hi_next u hlt P.objW hgap
  have lo : P.loT w = w' * (P.objAt w').length + P.loT w' := lo_next hlt P.objW hgap
  refine ⟨s2, fun x hx => ?_, fun y hy => h.bmo y (List.mem_cons_of_mem _ hy), fun y hy => h.pos y (List.mem_cons_of_mem _ hy), fun F hF => ?_, fun u hu => ?_, fun v hv ht => ?_⟩
  · rcases h.mem x hx with hm | hm
    · exact .inl (by omega)
    · rcases List.mem_cons.1 hm with e | hm
      · exact .inl (by omega)
      · exact .inr hm
  · rcases List.mem_append.1 hF with hF | hF
    · obtain ⟨y, hy, he⟩ := h.funs F hF
      exact ⟨y, by omega, he⟩
    · rw [List.mem_singleton.1 hF]
      exact ⟨w, hlt, rfl⟩
  · have a := h.snd u fun F hF => hu F (List.mem_append_left _ hF)
    have b : w * cnt u (P.objAt w) ≤ w * q := Nat.mul_le_mul_left _ (hu (P.objAt w, q) (List.mem_append_right _ (List.mem_singleton.2 rfl)))
    rw [hi]; omega
  · have hp := (ht.parts w).1
    have hb := h.bmo w List.mem_cons_self
    rcases h.dom v hv ht with hd | hd
    · have hq' := hq v hv ht hd
      by_cases he : cnt v (P.objAt w) = q
      · exact .inl (h.left hd he)
      · have : w * (q + 1) ≤ w * cnt v (P.objAt w) := Nat.mul_le_mul_left _ (by omega)
        rw [Nat.mul_add, Nat.mul_one] at this
        have := hd.1
        exact .inr (by omega)
    · have : w * q ≤ w * (P.objAt w).length := Nat.mul_le_mul_left _ hql
      exact .inr (by omega)

/-- passes left at a level -/
def passes (P : Prob) (w loc : Nat) : Nat := if loc = 0 then (P.objAt w).length + 2 else loc / w + 1

structure BmoInv (P : Prob) (f w : Nat) (rest : List Nat) (t : Tot) (s : Sol) (Fs : List (List Nat × Nat)) (loc nb lb ub : Nat) (u : Nat → Bool) : Prop where
  lex : Lex P w rest Fs lb
  lv : Lv P w (P.objAt w) Fs (if loc = 0 then none else some (loc / w - 1)) t s
  found : loc ≠ 0 → nb ≠ 0 ∧ ∃ v, P.Holds v ∧ P.Tight v ∧ Left P w Fs lb v ∧ loc = w * cnt v (P.objAt w)
  wit : nb ≠ 0 → ∃ v, P.Holds v ∧ P.Tight v ∧ Left P w Fs lb v
  zero : nb = 0 → ∀ v, P.Holds v → P.Tight v → Left P w Fs lb v
  best : rest = [] → loc ≠ 0 → P.Holds u ∧ costC u P.soft = ub ∧ ub = lb + loc
  fuel : passes P w loc + (rest.map fun y => (P.objAt y).length + 2).sum ≤ f

theorem Lex.below {P : Prob} {w : Nat} {rest : List Nat} {Fs : List (List Nat × Nat)} {lb : Nat} (h : Lex P w rest Fs lb) (v : Nat) : ∀ F ∈ Fs, Below (P.relaxed v).n F.1 := fun F hF => by
  obtain ⟨y, _, he⟩ := h.funs F hF
  rw [he]; exact P.objAt_below y v

/-- the last weight is the smallest -/
theorem Lex.last {P : Prob} {w : Nat} {Fs : List (List Nat × Nat)} {lb : Nat} (h : Lex P w [] Fs lb) : P.loT w = 0 := by
  unfold Prob.loT
  have : P.objW.filter (fun x => decide (x.2 < w)) = [] := by
    refine List.filter_eq_nil_iff.2 fun x hx hd => ?_
    have hd := of_decide_eq_true hd
    rcases h.mem x hx with hm | hm
    · omega
    · have := List.mem_singleton.1 hm; omega
  rw [this]; rfl

theorem suBmo_right {P : Prob} (hw : P.WF) (hne : P.NonEmpty) {O : Orc} (hO : O.Ok) (H : Nat → Bool) :
    ∀ (f k w : Nat) (rest : List Nat) (t : Tot) (s : Sol) (Fs : List (List Nat × Nat)) (loc nb lb ub : Nat) (u : Nat → Bool),
    BmoInv P f w rest t s Fs loc nb lb ub u → ∃ r, suBmo P O H f k w rest t s Fs loc nb lb ub u = some r ∧ Right P O H r := by
  intro f
  induction f with
  | zero =>
    intro k w rest t s Fs loc nb lb ub u h
    have := h.fuel
    have : passes P w loc = 0 := by omega
    unfold passes at this
    split at this <;> cases this
  | succ f ih =>
    intro k w rest t s Fs loc nb lb ub u h
    unfold suBmo
    dsimp only
    have ho := hO k s []
    have hpos := h.lex.pos w List.mem_cons_self
    split
    · rename_i hm
      exact ⟨_, rfl, .inl ⟨_, _, _, hm⟩⟩
    · -- a model: its exact version is best for the higher weights
      rename_i m hm
      rw [hm] at ho
      obtain ⟨sF, sb⟩ := h.lv.sound m ho.1
      have hr := h.lv.ext.holds ho.1
      obtain ⟨m1, m2, m3, m4⟩ := h.lex.model hw hr sF
      have hcost : costAt m w P.soft = w * cnt (P.tighten m) (P.objAt w) := by
        rw [← costAt_congr (u := P.tighten m) fun c hc l hl => Prob.tighten_old (hw.soft c hc l hl)]
        exact costAt_eq _ P.n w P.soft 0 hne m2
      obtain ⟨q, hq⟩ : ∃ q, cnt (P.tighten m) (P.objAt w) = q := ⟨_, rfl⟩
      have hql : q ≤ (P.objAt w).length := by rw [← hq]; exact cnt_le _ _
      rw [hq] at hcost
      have hdiv : costAt m w P.soft / w = q := by rw [hcost]; exact Nat.mul_div_cancel_left q hpos
      have hzero : costAt m w P.soft = 0 ↔ q = 0 := by rw [hcost, Nat.mul_eq_zero]; omega
      have hbest : rest = [] → costC m P.soft = costAt m w P.soft + lb := fun e => by
        have hp := m2.parts w
        subst e
        rw [h.lex.last, m3.1, hq, m4] at hp
        omega
      split
      · rename_i hH
        exact ⟨_, rfl, .inr ⟨_, hH.2.2⟩⟩
      · split
        · -- no clause of this weight is violated
          rename_i hc
          have hq0 := hzero.1 hc
          cases rest with
          | nil =>
            dsimp only
            rw [if_pos rfl, if_pos rfl]
            refine ⟨_, rfl, (Prob.relaxed_sound hr).1, hbest rfl, fun v hv => ?_⟩
            obtain ⟨v1, _, g2, g3, g4⟩ := Prob.exists_tight hw hv
            have hp := g3.parts w
            rw [← g4, hc]
            rcases h.lex.dom v1 g2 g3 with hd | hd
            · have := hd.1; omega
            · omega
          | cons w' rest' =>
            dsimp only
            have hl := h.lex.next (q := 0) (Nat.zero_le _) fun v _ _ _ => Nat.zero_le _
            obtain ⟨t', s', e1, e2⟩ := Lv.start hw h.lv.inc (hl.below w') (P.objAt w')
            rw [e1]
            refine ih _ _ _ _ _ _ _ _ _ _ _ ⟨by rw [Nat.mul_zero, Nat.add_zero] at hl; exact hl, by rw [if_pos rfl]; exact e2, fun e => absurd rfl e, fun _ => ⟨P.tighten m, m1, m2, ?_⟩,
              fun e => absurd e (Nat.succ_ne_zero _), fun _ e => absurd rfl e, ?_⟩
            · have := h.lex.left m3 (hq.trans hq0)
              rw [Nat.mul_zero, Nat.add_zero] at this; exact this
            · have := h.fuel
              unfold passes at this ⊢
              rw [if_pos rfl]
              rw [List.map_cons, List.sum_cons] at this
              have hnn := Nat.zero_le (loc / w)
              split at this <;> omega
        · -- a smaller bound
          rename_i hc
          have hq0 : q ≠ 0 := fun e => hc (hzero.2 e)
          have step : ∃ t' s', (if loc = 0 then t.encode s (P.objAt w) (costAt m w P.soft / w - 1) else (t.update s (costAt m w P.soft / w - 1)).map fun r => (r.1, r.2.1)) = some (t', s') ∧
              Lv P w (P.objAt w) Fs (some (costAt m w P.soft / w - 1)) t' s' ∧ q + 1 + 1 ≤ passes P w loc := by
            have hlv := h.lv
            rw [hdiv]
            unfold passes
            by_cases hl : loc = 0
            · rw [if_pos hl] at hlv ⊢
              rw [if_pos hl]
              obtain ⟨t', s', e1, e2⟩ := hlv.encode (P.objAt_below w w) (c := q - 1) (by omega)
              exact ⟨t', s', e1, e2, by omega⟩
            · rw [if_neg hl] at hlv sb ⊢
              rw [if_neg hl]
              have hqb : q ≤ loc / w - 1 := by
                rw [← hq]
                exact Nat.le_trans (Prob.tighten_le hw hr (Nat.le_refl w)) sb
              by_cases hh : t.has = true
              · obtain ⟨s', e1, e2⟩ := hlv.update hh (P.objAt_below w w) (c := q - 1) (by omega)
                exact ⟨t, s', by rw [e1]; rfl, e2, by omega⟩
              · have := hlv.pure _ rfl (by simpa using hh)
                omega
          obtain ⟨t', s', e1, e2, e3⟩ := step
          rw [e1]
          refine ih _ _ _ _ _ _ _ _ _ _ _ ⟨h.lex, by rw [if_neg hc]; exact e2, fun _ => ⟨Nat.succ_ne_zero _, P.tighten m, m1, m2, m3, by rw [hq]; exact hcost⟩, fun _ => ⟨_, m1, m2, m3⟩,
            fun e => absurd e (Nat.succ_ne_zero _), fun e _ => ?_, ?_⟩
          · rw [if_pos e, if_pos e]
            exact ⟨(Prob.relaxed_sound hr).1, hbest e, by omega⟩
          · have := h.fuel
            have : passes P w (costAt m w P.soft) = q + 1 := by unfold passes; rw [if_neg hc, hdiv]
            omega
    · rename_i core hm
      rw [hm] at ho
      have hu : ∀ u : Nat → Bool, ¬ s.Holds u := fun u hu => by
        obtain ⟨l, hl, _⟩ := ho.2.2 u hu
        exact nomatch ho.1 l hl
      -- the bound cannot be met
      have hno : loc = 0 → ∀ v, P.Holds v → P.Tight v → ¬ Left P w Fs lb v := fun e v hv ht hL => by
        have hlv := h.lv
        rw [if_pos e] at hlv
        obtain ⟨v', _, g, _⟩ := hlv.complete v hv ht hL.2 trivial
        exact hu v' g
      have hmin : loc ≠ 0 → ∀ v, P.Holds v → P.Tight v → Left P w Fs lb v → loc / w ≤ cnt v (P.objAt w) := fun e v hv ht hL => by
        have hlv := h.lv
        rw [if_neg e] at hlv
        refine Classical.byContradiction fun hlt => ?_
        obtain ⟨v', _, g, _⟩ := hlv.complete v hv ht hL.2 (show cnt v (P.objAt w) ≤ loc / w - 1 by omega)
        exact hu v' g
      cases rest with
      | nil =>
        dsimp only
        split
        · rename_i hz
          refine ⟨_, rfl, fun v hv => ?_⟩
          obtain ⟨v1, _, g2, g3, _⟩ := Prob.exists_tight hw hv
          have hl : loc = 0 := Classical.byContradiction fun e => (h.found e).1 hz
          exact hno hl v1 g2 g3 (h.zero hz v1 g2 g3)
        · rename_i hz
          have hl : loc ≠ 0 := fun e => by
            obtain ⟨v, g1, g2, g3⟩ := h.wit hz
            exact hno e v g1 g2 g3
          obtain ⟨b1, b2, b3⟩ := h.best rfl hl
          obtain ⟨_, v0, _, _, _, c4⟩ := h.found hl
          refine ⟨_, rfl, b1, b2, fun v hv => ?_⟩
          obtain ⟨v1, _, g2, g3, g4⟩ := Prob.exists_tight hw hv
          rw [← g4, b3]
          have hp := (g3.parts w).1
          have hdv : loc = w * (loc / w) := by rw [c4, Nat.mul_div_cancel_left _ hpos]
          rcases h.lex.dom v1 g2 g3 with hd | hd
          · have h1 := Nat.mul_le_mul_left w (hmin hl v1 g2 g3 hd)
            have := hd.1
            omega
          · have h1 := cnt_mul_le v0 w (P.objAt w)
            omega
      | cons w' rest' =>
        dsimp only
        split
        · rename_i hH
          exact ⟨_, rfl, .inr ⟨_, hH⟩⟩
        · have hlen : loc / w ≤ (P.objAt w).length := by
            by_cases hl : loc = 0
            · rw [hl, Nat.zero_div]; exact Nat.zero_le _
            · obtain ⟨_, v0, _, _, _, c4⟩ := h.found hl
              rw [c4, Nat.mul_div_cancel_left _ hpos]; exact cnt_le _ _
          have hdv : w * (loc / w) = loc := by
            by_cases hl : loc = 0
            · rw [hl, Nat.zero_div]; rfl
            · obtain ⟨_, v0, _, _, _, c4⟩ := h.found hl
              rw [c4, Nat.mul_div_cancel_left _ hpos]
          have hl := h.lex.next hlen fun v hv ht hL => by
            by_cases hl : loc = 0
            · rw [hl, Nat.zero_div]; exact Nat.zero_le _
            · exact hmin hl v hv ht hL
          rw [hdv] at hl
          obtain ⟨t', s', e1, e2⟩ := Lv.start hw h.lv.inc (hl.below w') (P.objAt w')
          rw [e1]
          refine ih _ _ _ _ _ _ _ _ _ _ _ ⟨hl, by rw [if_pos rfl]; exact e2, fun e => absurd rfl e, fun hz => ?_, fun hz v hv ht => ?_, fun _ e => absurd rfl e, ?_⟩
          · have hl0 : loc ≠ 0 := fun e => by
              obtain ⟨v, g1, g2, g3⟩ := h.wit hz
              exact hno e v g1 g2 g3
            obtain ⟨_, v0, c1, c2, c3, c4⟩ := h.found hl0
            have hL := h.lex.left c3 (q := loc / w) (by rw [c4, Nat.mul_div_cancel_left _ hpos])
            rw [hdv] at hL
            exact ⟨v0, c1, c2, hL⟩
          · have hl0 : loc = 0 := Classical.byContradiction fun e => (h.found e).1 hz
            exact absurd (h.zero hz v hv ht) (hno hl0 v hv ht)
          · have := h.fuel
            unfold passes at this ⊢
            rw [if_pos rfl]
            rw [List.map_cons, List.sum_cons] at this
            have hnn := Nat.zero_le (loc / w)
            split at this <;> omega

end Verif.MaxAlg
