import Verif.MaxSat.LinearSU
import Verif.MaxSat.Swc

/-! # LinearSU (alg_linear_su.go): weighted problems, and the choice between the searches -/

namespace Verif.MaxAlg

open Verif.MaxSat (litVal clauseVal costC)

/-! ## model -/

/-- alg_linear_su.go:126-169 `normalSearch` for weighted problems; `xs` are `objFunction` and `coeffs`, which `encodePB` overwrites -/
def suWeighted (P : Prob) (O : Orc) (H : Nat → Bool) : Nat → Nat → Swc → List (Nat × Nat) → Sol → Nat → Nat → (Nat → Bool) → Option Res
  | 0, _, _, _, _, _, _, _ => none
  | f + 1, k, sw, xs, s, nb, ub, u => match O k s [] with
    | .cancel => some .cancel
    | .sat m =>
      if costC m P.soft = 0 then some (.opt (costC m P.soft) m)
      else
        let r := if sw.has = false then sw.encode s xs (costC m P.soft - 1) else ((sw.update s (costC m P.soft - 1)).1, (sw.update s (costC m P.soft - 1)).2, xs)
        if H k = false then some .cancel else suWeighted P O H f (k + 1) r.1 r.2.2 r.2.1 (nb + 1) (costC m P.soft) m
    | .unsat _ => if nb = 0 then some .unsat else some (.opt ub u)

/-- a descending list without repetitions (algorithm.go:197-211: the tree set of the weights, sorted and reversed) -/
def insW (w : Nat) : List Nat → List Nat
  | [] => [w]
  | x :: xs => if w = x then x :: xs else if x < w then w :: x :: xs else x :: insW w xs

/-- algorithm.go:194-213: `orderWeights` -/
def orderWeights (ws : List Nat) : List Nat := ws.foldr insW []

/-- algorithm.go:214-225, the second loop of `isBmo`: `total` is `totalWeights` -/
def bmoGo (ws : List Nat) : Int → List Nat → Bool
  | _, [] => true
  | total, w :: rest => if (w : Int) < total - w * ws.count w then false else bmoGo ws (total - w * ws.count w) rest

/-- algorithm.go:194 `isBmo` -/
def isBmo (ws : List Nat) : Bool := bmoGo ws (((orderWeights ws).map fun w => w * ws.count w).sum : Nat) (orderWeights ws)

/-- algorithm.go:155 `setCurrentWeight`: the greatest weight, at least 1 -/
def curWeight (ws : List Nat) : Nat := ws.foldl max 1

/-- alg_linear_su.go:37 `search` -/
def linearSU (bmoMode : Bool) (P : Prob) (O : Orc) (H : Nat → Bool) (f : Nat) : Option Res :=
  if curWeight (P.soft.map (·.2)) = 1 then suNormal P O H f 0 { inc := false } (P.relaxed 1) 0 0 fun _ => false
  else if bmoMode && isBmo (P.soft.map (·.2)) then match orderWeights (P.soft.map (·.2)) with
    | [] => none
    | w :: rest => (P.rebuildBmo { inc := false } [] w).bind fun r => suBmo P O H f 0 w rest r.1 r.2 [] 0 0 0 0 fun _ => false
  else suWeighted P O H f 0 {} P.objW (P.relaxed 1) 0 0 fun _ => false

/-! ## weighted search -/

/-- what holds of every result: a reported optimum is the cost of the reported model, which satisfies the hard clauses -/
def Safe (P : Prob) (O : Orc) (H : Nat → Bool) : Res → Prop
  | .cancel => Cancels O H
  | .unsat => ∀ u, ¬ P.Holds u
  | .opt c u => P.Holds u ∧ costC u P.soft = c

/-- all weights are positive -/
def Prob.Pos (P : Prob) : Prop := ∀ c ∈ P.soft, 1 ≤ c.2

/-- for no bound exactly one soft clause has a weight up to the bound -/
def Prob.NoSingle (P : Prob) : Prop := ∀ b, (P.soft.filter fun c => decide (c.2 ≤ b)).length ≠ 1

theorem small_objW (P : Prob) (b : Nat) : (small P.objW b).length = (P.soft.filter fun c => decide (c.2 ≤ b)).length := by
  unfold small Prob.objW
  rw [← List.countP_eq_length_filter, ← List.countP_eq_length_filter, List.countP_map]
  have : ∀ (S : List (List Nat × Nat)) (k : Nat), (S.zipIdx k).countP ((fun x : Nat × Nat => decide (x.2 ≤ b)) ∘ fun ci => (2 * (P.n + ci.2), ci.1.2)) = S.countP fun c => decide (c.2 ≤ b) := by
    intro S
    induction S with
    | nil => intro k; rfl
    | cons c S ih => intro k; rw [List.zipIdx_cons, List.countP_cons, List.countP_cons, ih]; rfl
  exact this _ _

/-- the solver of the weighted search with the bound `b` on the weight of the true relaxation literals -/
structure PbLv (P : Prob) (b : Nat) (sw : Swc) (s : Sol) : Prop where
  ext : Ext (P.relaxed 1) s
  wf : s.WF
  sound : ∀ u, s.Holds u → wsum u P.objW ≤ b
  pure : sw.has = false → ∀ u, s.Holds u → wsum u P.objW = 0
  complete : ∃ aux ys R, (sw.has = true → sw.rhs = b ∧ PB sw s P.objW aux ys R) ∧ (P.NoSingle → ∀ v, P.Holds v → P.Tight v → wsum v P.objW ≤ b →
    ∃ v' : Nat → Bool, (∀ x < (P.relaxed 1).n, v' x = v x) ∧ s.Holds v' ∧ (sw.has = true → SeqExact v' aux ys R))

theorem Prob.objW_below {P : Prob} : ∀ x ∈ P.objW, x.1 / 2 < (P.relaxed 1).n := fun _ hx => (Prob.objW_lt hx).2

theorem Prob.Pos.objW {P : Prob} (h : P.Pos) : ∀ x ∈ P.objW, 0 < x.2 := fun x hx => by
  obtain ⟨ci, hci, rfl⟩ := List.mem_map.1 hx
  exact h _ (List.mem_of_getElem? (mem_zipIdx_lt hci).2)

theorem PbLv.start {P : Prob} (hw : P.WF) (hp : P.Pos) (b : Nat) : ∃ sw s ys, Swc.encode {} (P.relaxed 1) P.objW b = (sw, s, ys) ∧ PbLv P b sw s := by
  obtain ⟨sw, s, ys, e1, e2, e3, e4, e5, aux, e6, e7⟩ := swc_encode_spec (sw := {}) (rhs := b) (Prob.relaxed_wf hw 1) Prob.objW_below hp.objW rfl
  exact ⟨sw, s, ys, e1, e2, e3, e4, e5, aux, ys, b, e6, fun hn v hv ht hle => e7 (by rw [small_objW]; exact hn b) v (ht.relaxed hv 1) hle⟩

theorem PbLv.update {P : Prob} {b c : Nat} {sw : Swc} {s : Sol} (h : PbLv P b sw s) (hh : sw.has = true) (hc : c < b) : ∃ s', sw.update s c = ({ sw with rhs := c }, s') ∧ PbLv P c { sw with rhs := c } s' := by
  obtain ⟨aux, ys, R, h1, h2⟩ := h.complete
  obtain ⟨r1, r2⟩ := h1 hh
  obtain ⟨s', e1, e2, e3, e4, e5, e6⟩ := swc_update_spec (rhs := c) h.wf r2 (by omega)
  refine ⟨s', e1, h.ext.trans e2, e3, e5, fun hf => absurd (hh.symm.trans hf) (by simp), aux, ys, R, fun _ => ⟨rfl, e4⟩, fun hn v hv ht hle => ?_⟩
  obtain ⟨v', g1, g2, g3⟩ := h2 hn v hv ht (by omega)
  exact ⟨v', g1, e6 v' g2 (g3 hh) (by rw [wsum_congr fun x hx => g1 _ (Prob.objW_below x hx)]; exact hle), fun _ => g3 hh⟩

theorem costC_le_total (u : Nat → Bool) : ∀ S : List (List Nat × Nat), costC u S ≤ (S.map (·.2)).sum
  | [] => Nat.le_refl _
  | (c, w) :: S => by
    rw [costC, List.map_cons, List.sum_cons]
    have := costC_le_total u S
    split <;> dsimp only <;> omega

theorem suWeighted_right {P : Prob} (hw : P.WF) (hp : P.Pos) {O : Orc} (hO : O.Ok) (H : Nat → Bool) : ∀ (f k : Nat) (sw : Swc) (xs : List (Nat × Nat)) (s : Sol) (nb ub : Nat) (u : Nat → Bool),
    (nb = 0 → sw = {} ∧ xs = P.objW ∧ s = P.relaxed 1 ∧ (P.soft.map (·.2)).sum + 2 ≤ f) →
    (nb ≠ 0 → PbLv P (ub - 1) sw s ∧ P.Holds u ∧ costC u P.soft = ub ∧ ub ≠ 0 ∧ ub + 1 ≤ f) →
    ∃ r, suWeighted P O H f k sw xs s nb ub u = some r ∧ Safe P O H r ∧ (P.NoSingle → Right P O H r) := by
  intro f
  induction f with
  | zero =>
    intro k sw xs s nb ub u h0 hn
    by_cases hz : nb = 0
    · have := (h0 hz).2.2.2; omega
    · have := (hn hz).2.2.2; omega
  | succ f ih =>
    intro k sw xs s nb ub u h0 hn
    unfold suWeighted
    dsimp only
    have ho := hO k s []
    split
    · rename_i hm
      exact ⟨_, rfl, .inl ⟨_, _, _, hm⟩, fun _ => .inl ⟨_, _, _, hm⟩⟩
    · rename_i m hm
      rw [hm] at ho
      have hr : (P.relaxed 1).Holds m := by
        by_cases hz : nb = 0
        · have := ho.1; rw [(h0 hz).2.2.1] at this; exact this
        · exact (hn hz).1.ext.holds ho.1
      have key := (Prob.relaxed_sound hr).1
      split
      · rename_i hc
        exact ⟨_, rfl, ⟨key, rfl⟩, fun _ => ⟨key, rfl, fun v _ => by rw [hc]; exact Nat.zero_le _⟩⟩
      · rename_i hc
        split
        · rename_i hH
          exact ⟨_, rfl, .inr ⟨_, hH⟩, fun _ => .inr ⟨_, hH⟩⟩
        · by_cases hz : nb = 0
          · obtain ⟨rfl, rfl, rfl, h4⟩ := h0 hz
            obtain ⟨sw', s', ys, e1, e2⟩ := PbLv.start hw hp (costC m P.soft - 1)
            rw [if_pos rfl, e1]
            have := costC_le_total m P.soft
            exact ih _ _ _ _ _ _ _ (fun e => absurd e (Nat.succ_ne_zero nb)) fun _ => ⟨e2, key, rfl, hc, by omega⟩
          · obtain ⟨h2, _, _, _, h6⟩ := hn hz
            have hle := Nat.le_trans (Prob.cost_le hp hr) (h2.sound m ho.1)
            by_cases hh : sw.has = true
            · obtain ⟨s', e1, e2⟩ := h2.update hh (c := costC m P.soft - 1) (by omega)
              rw [if_neg (by rw [hh]; simp), e1]
              exact ih _ _ _ _ _ _ _ (fun e => absurd e (Nat.succ_ne_zero nb)) fun _ => ⟨e2, key, rfl, hc, by omega⟩
            · have a := h2.pure (by simpa using hh) m ho.1
              have b := Prob.cost_le hp hr
              omega
    · rename_i core hm
      rw [hm] at ho
      have hu : ∀ u : Nat → Bool, ¬ s.Holds u := fun u hu => by
        obtain ⟨l, hl, _⟩ := ho.2.2 u hu
        exact nomatch ho.1 l hl
      split
      · rename_i hz
        have : ∀ v, ¬ P.Holds v := fun v hv => by
          obtain ⟨v1, _, g2, g3, _⟩ := Prob.exists_tight hw hv
          have := hu v1
          rw [(h0 hz).2.2.1] at this
          exact this (g3.relaxed g2 1)
        exact ⟨_, rfl, this, fun _ => this⟩
      · rename_i hz
        obtain ⟨h2, h3, h4, h5, _⟩ := hn hz
        refine ⟨_, rfl, ⟨h3, h4⟩, fun hns => ⟨h3, h4, fun v hv => Classical.byContradiction fun hlt => ?_⟩⟩
        obtain ⟨v1, _, g2, g3, g4⟩ := Prob.exists_tight hw hv
        obtain ⟨aux, ys, R, _, hc⟩ := h2.complete
        obtain ⟨v2, _, g6, _⟩ := hc hns v1 g2 g3 (by rw [← g3.cost, g4]; omega)
        exact hu v2 g6

/-! ## lexicographic weights -/

theorem mem_insW {w y : Nat} : ∀ {l : List Nat}, y ∈ insW w l ↔ y = w ∨ y ∈ l
  | [] => by simp [insW]
  | x :: xs => by
    rw [insW]
    split
    · rename_i h; subst h; simp
    · split
      · simp
      · rw [List.mem_cons, mem_insW]
        simp only [List.mem_cons]
        constructor
        · rintro (h | h | h)
          · exact .inr (.inl h)
          · exact .inl h
          · exact .inr (.inr h)
        · rintro (h | h | h)
          · exact .inr (.inl h)
          · exact .inl h
          · exact .inr (.inr h)

theorem insW_sorted {w : Nat} : ∀ {l : List Nat}, l.Pairwise (· > ·) → (insW w l).Pairwise (· > ·)
  | [], _ => by simp [insW]
  | x :: xs, h => by
    obtain ⟨h1, h2⟩ := List.pairwise_cons.1 h
    rw [insW]
    split
    · exact h
    · split
      · rename_i hlt
        refine List.pairwise_cons.2 ⟨fun y hy => ?_, h⟩
        rcases List.mem_cons.1 hy with rfl | hy
        · exact hlt
        · have := h1 y hy; omega
      · refine List.pairwise_cons.2 ⟨fun y hy => ?_, insW_sorted h2⟩
        rcases mem_insW.1 hy with rfl | hy
        · omega
        · exact h1 y hy

theorem mem_order {ws : List Nat} {y : Nat} : y ∈ orderWeights ws ↔ y ∈ ws := by
  unfold orderWeights
  induction ws with
  | nil => simp
  | cons w ws ih => rw [List.foldr_cons, mem_insW, ih, List.mem_cons]

theorem order_sorted (ws : List Nat) : (orderWeights ws).Pairwise (· > ·) := by
  unfold orderWeights
  induction ws with
  | nil => exact List.Pairwise.nil
  | cons w ws ih => exact insW_sorted ih

/-- weight of all numbers below -/
def below (ws : List Nat) (w : Nat) : Nat := (ws.filter fun x => decide (x < w)).sum

theorem below_next {ws : List Nat} {w w' : Nat} (hlt : w' < w) (h : ∀ x ∈ ws, w ≤ x ∨ x ≤ w') : below ws w = w' * ws.count w' + below ws w' := by
  unfold below
  induction ws with
  | nil => simp
  | cons x xs ih =>
    have ih := ih fun y hy => h y (List.mem_cons_of_mem _ hy)
    have h0 := h x List.mem_cons_self
    rw [List.filter_cons, List.filter_cons, List.count_cons]
    rcases Nat.lt_trichotomy x w' with h | h | h
    · simp [show x < w by omega, h, show ¬ x = w' by omega]; omega
    · subst h
      simp [hlt, Nat.mul_add]; omega
    · simp [show ¬ x < w by omega, show ¬ x < w' by omega, show ¬ x = w' by omega]; exact ih

/-- `bmoGo` with the weight of the remaining numbers -/
theorem bmoGo_spec (ws : List Nat) : ∀ (l : List Nat) (t : Nat), l.Pairwise (· > ·) → (∀ w, l.head? = some w → (t : Int) = w * ws.count w + below ws w) →
    (∀ w ∈ l, ∀ x ∈ ws, x < w → x ∈ l) → bmoGo ws t l = true → ∀ y ∈ l, below ws y ≤ y
  | [], _, _, _, _, _ => fun y hy => nomatch hy
  | w :: rest, t, hs, ht, hm, hb => by
    obtain ⟨s1, s2⟩ := List.pairwise_cons.1 hs
    rw [bmoGo, ht w rfl, show (w : Int) * ws.count w + below ws w - w * ws.count w = (below ws w : Nat) by omega] at hb
    split at hb
    · cases hb
    · rename_i hle
      intro y hy
      rcases List.mem_cons.1 hy with rfl | hy
      · omega
      · refine bmoGo_spec ws rest (below ws w) s2 (fun w' hw' => ?_) (fun a ha x hx hlt => ?_) hb y hy
        · cases rest with
          | nil => cases hw'
          | cons b rest =>
            injection hw' with hw'
            subst hw'
            have := below_next (ws := ws) (s1 b List.mem_cons_self) fun x hx => by
              by_cases hlt : x < w
              · right
                rcases List.mem_cons.1 (hm w List.mem_cons_self x hx hlt) with e | e
                · omega
                · rcases List.mem_cons.1 e with e | e
                  · omega
                  · have := (List.pairwise_cons.1 s2).1 x e; omega
              · left; omega
            omega
        · rcases List.mem_cons.1 (hm a (List.mem_cons_of_mem _ ha) x hx hlt) with e | e
          · have := s1 a ha; omega
          · exact e

theorem total_spec (ws : List Nat) : ∀ (rest : List Nat) (w : Nat), (w :: rest).Pairwise (· > ·) → (∀ a ∈ w :: rest, ∀ x ∈ ws, x < a → x ∈ w :: rest) →
    ((w :: rest).map fun w => w * ws.count w).sum = w * ws.count w + below ws w
  | [], w, _, hm => by
    have : below ws w = 0 := by
      unfold below
      have : ws.filter (fun x => decide (x < w)) = [] := List.filter_eq_nil_iff.2 fun x hx hd => by
        have hd := of_decide_eq_true hd
        have := List.mem_singleton.1 (hm w List.mem_cons_self x hx hd)
        omega
      rw [this]; rfl
    rw [this]; simp
  | b :: rest, w, hs, hm => by
    obtain ⟨s1, s2⟩ := List.pairwise_cons.1 hs
    have h0 := below_next (ws := ws) (s1 b List.mem_cons_self) fun x hx => by
      by_cases hlt : x < w
      · right
        rcases List.mem_cons.1 (hm w List.mem_cons_self x hx hlt) with e | e
        · omega
        · rcases List.mem_cons.1 e with e | e
          · omega
          · have := (List.pairwise_cons.1 s2).1 x e; omega
      · left; omega
    have ih := total_spec ws rest b s2 fun a ha x hx hlt => by
      rcases List.mem_cons.1 (hm a (List.mem_cons_of_mem _ ha) x hx hlt) with e | e
      · have := s1 a ha; omega
      · exact e
    rw [List.map_cons, List.sum_cons, ih, h0]

/-- weights with `isBmo`: each is at least the weight of everything below it -/
theorem isBmo_spec {ws : List Nat} (h : isBmo ws = true) : ∀ y ∈ ws, below ws y ≤ y := by
  intro y hy
  unfold isBmo at h
  have hm : ∀ a ∈ orderWeights ws, ∀ x ∈ ws, x < a → x ∈ orderWeights ws := fun _ _ x hx _ => mem_order.2 hx
  cases ho : orderWeights ws with
  | nil =>
    have := mem_order.2 hy
    rw [ho] at this; cases this
  | cons w rest =>
    have hs := order_sorted ws
    rw [ho] at h hm hs
    have ht := total_spec ws rest w hs hm
    rw [ht] at h
    refine bmoGo_spec ws _ _ hs (fun w' hw' => ?_) hm h y (by rw [← ho]; exact mem_order.2 hy)
    injection hw' with hw'
    subst hw'
    simp

theorem Prob.objW_snd (P : Prob) : P.objW.map (·.2) = P.soft.map (·.2) := by
  unfold Prob.objW
  rw [List.map_map]
  have : ∀ (S : List (List Nat × Nat)) (k : Nat), (S.zipIdx k).map ((fun x : Nat × Nat => x.2) ∘ fun ci => (2 * (P.n + ci.2), ci.1.2)) = S.map (·.2) := by
    intro S
    induction S with
    | nil => intro k; rfl
    | cons c S ih => intro k; rw [List.zipIdx_cons, List.map_cons, List.map_cons, ih]; rfl
  exact this _ _

theorem Prob.loT_eq (P : Prob) (w : Nat) : P.loT w = below (P.soft.map (·.2)) w := by
  unfold Prob.loT below
  rw [← P.objW_snd, List.filter_map]; rfl

theorem mem_objW_snd {P : Prob} {x : Nat × Nat} (h : x ∈ P.objW) : x.2 ∈ P.soft.map (·.2) := by
  rw [← P.objW_snd]; exact List.mem_map.2 ⟨x, h, rfl⟩

/-- passes of the search in the order of the weights -/
def Prob.bmoFuel (P : Prob) : Nat := ((orderWeights (P.soft.map (·.2))).map fun y => (P.objAt y).length + 2).sum

theorem bmoInv_start {P : Prob} (hw : P.WF) (hp : P.Pos) (hb : isBmo (P.soft.map (·.2)) = true) {w : Nat} {rest : List Nat} (ho : orderWeights (P.soft.map (·.2)) = w :: rest) {f : Nat}
    (hf : P.bmoFuel ≤ f) : ∃ t s, P.rebuildBmo { inc := false } [] w = some (t, s) ∧ BmoInv P f w rest t s [] 0 0 0 0 fun _ => false := by
  obtain ⟨t, s, e1, e2⟩ := Lv.start (P := P) (t := { inc := false }) (Fs := []) (w := w) hw rfl (fun F hF => nomatch hF) (P.objAt w)
  have hs := order_sorted (P.soft.map (·.2))
  rw [ho] at hs
  have hmem : ∀ y ∈ w :: rest, y ∈ P.soft.map (·.2) := fun y hy => mem_order.1 (by rw [ho]; exact hy)
  have hin : ∀ x ∈ P.objW, x.2 ∈ w :: rest := fun x hx => by rw [← ho]; exact mem_order.2 (mem_objW_snd hx)
  have hhi : ∀ u, P.hiW w u = 0 := fun u => by
    unfold Prob.hiW
    have : P.objW.filter (fun x => decide (w < x.2)) = [] := List.filter_eq_nil_iff.2 fun x hx hd => by
      have hd := of_decide_eq_true hd
      rcases List.mem_cons.1 (hin x hx) with e | e
      · omega
      · have := (List.pairwise_cons.1 hs).1 _ e; omega
    rw [this]; rfl
  refine ⟨t, s, e1, ⟨hs, fun x hx => .inr (hin x hx), fun y hy => ?_, fun y hy => ?_, fun F hF => (nomatch hF), fun u _ => Nat.le_of_eq (hhi u), fun v _ _ => .inl ⟨hhi v, fun F hF => nomatch hF⟩⟩,
    by rw [if_pos rfl]; exact e2, fun e => absurd rfl e, fun e => absurd rfl e, fun _ v _ _ => ⟨hhi v, fun F hF => nomatch hF⟩, fun _ e => absurd rfl e, ?_⟩
  · rw [P.loT_eq]; exact isBmo_spec hb y (hmem y hy)
  · obtain ⟨c, hc, rfl⟩ := List.mem_map.1 (hmem y hy)
    exact hp c hc
  · unfold Prob.bmoFuel at hf
    rw [ho, List.map_cons, List.sum_cons] at hf
    unfold passes
    rw [if_pos rfl]; exact hf

theorem le_curWeight {ws : List Nat} {w : Nat} (h : w ∈ ws) : w ≤ curWeight ws := by
  unfold curWeight
  have : ∀ (ws : List Nat) (a : Nat), a ≤ ws.foldl max a ∧ ∀ w ∈ ws, w ≤ ws.foldl max a := by
    intro ws
    induction ws with
    | nil => exact fun a => ⟨Nat.le_refl _, fun w h => nomatch h⟩
    | cons x xs ih =>
      intro a
      obtain ⟨h1, h2⟩ := ih (max a x)
      refine ⟨Nat.le_trans (Nat.le_max_left _ _) h1, fun w hw => ?_⟩
      rcases List.mem_cons.1 hw with rfl | hw
      · exact Nat.le_trans (Nat.le_max_right _ _) h1
      · exact h2 w hw
  exact (this ws 1).2 w h

/-- passes of `linearSU` -/
def Prob.suFuel (P : Prob) : Nat := P.bmoFuel + (P.soft.map (·.2)).sum + P.soft.length + 2

/-- `linearSU`: the result is safe; it is right for unweighted problems, for lexicographic weights in that mode, and if no single soft clause has a weight up to some bound -/
theorem linearSU_right {P : Prob} (hw : P.WF) (hp : P.Pos) (hne : P.NonEmpty) {O : Orc} (hO : O.Ok) (H : Nat → Bool) (bmoMode : Bool) {f : Nat} (hf : P.suFuel ≤ f) :
    ∃ r, linearSU bmoMode P O H f = some r ∧ Safe P O H r ∧ (P.Unit ∨ (bmoMode = true ∧ isBmo (P.soft.map (·.2)) = true) ∨ P.NoSingle → Right P O H r) := by
  have safe : ∀ r, Right P O H r → Safe P O H r := fun r h => by
    cases r with
    | cancel => exact h
    | unsat => exact h
    | opt c u => exact ⟨h.1, h.2.1⟩
  unfold Prob.suFuel at hf
  unfold linearSU
  by_cases hc : curWeight (P.soft.map (·.2)) = 1
  · rw [if_pos hc]
    have h1 : P.Unit := fun c hc' => by
      have := le_curWeight (List.mem_map.2 ⟨c, hc', rfl⟩ : c.2 ∈ P.soft.map (·.2))
      have := hp c hc'
      omega
    have lv : Lv P 1 P.obj [] none { inc := false } (P.relaxed 1) :=
      ⟨rfl, Ext.refl _, Prob.relaxed_wf hw 1, fun u _ => ⟨fun F hF => (nomatch hF), trivial⟩, fun v hv ht _ _ => ⟨v, fun _ _ => rfl, ht.relaxed hv 1, fun h => absurd rfl h⟩,
        fun c h => (nomatch h), fun c h => (nomatch h)⟩
    obtain ⟨r, e1, e2⟩ := suNormal_right hw h1 hO H f 0 { inc := false } (P.relaxed 1) 0 0 (fun _ => false) (fun _ => ⟨lv, rfl, by omega⟩) fun e => absurd rfl e
    exact ⟨r, e1, safe r e2, fun _ => e2⟩
  · rw [if_neg hc]
    have hnu : ¬ P.Unit := fun h => hc (by
      unfold curWeight
      have : ∀ ws : List Nat, (∀ w ∈ ws, w = 1) → ws.foldl max 1 = 1 := by
        intro ws
        induction ws with
        | nil => intro _; rfl
        | cons x xs ih => intro h; rw [List.foldl_cons, h x List.mem_cons_self]; exact ih fun w hw => h w (List.mem_cons_of_mem _ hw)
      refine this _ fun w hw => ?_
      obtain ⟨c, hc', rfl⟩ := List.mem_map.1 hw
      exact h c hc')
    by_cases hb : (bmoMode && isBmo (P.soft.map (·.2))) = true
    · rw [if_pos hb]
      have hb' := Bool.and_eq_true_iff.1 hb
      cases ho : orderWeights (P.soft.map (·.2)) with
      | nil =>
        refine absurd (fun c hc' => ?_) hnu
        have := mem_order.2 (List.mem_map.2 ⟨c, hc', rfl⟩ : c.2 ∈ P.soft.map (·.2))
        rw [ho] at this; cases this
      | cons w rest =>
        obtain ⟨t, s, e1, e2⟩ := bmoInv_start hw hp hb'.2 ho (f := f) (by omega)
        obtain ⟨r, e3, e4⟩ := suBmo_right hw hne hO H f 0 w rest t s [] 0 0 0 0 _ e2
        dsimp only
        rw [e1]
        exact ⟨r, e3, safe r e4, fun _ => e4⟩
    · rw [if_neg hb]
      obtain ⟨r, e1, e2, e3⟩ := suWeighted_right hw hp hO H f 0 {} P.objW (P.relaxed 1) 0 0 (fun _ => false) (fun _ => ⟨rfl, rfl, rfl, by omega⟩) fun e => absurd rfl e
      refine ⟨r, e1, e2, fun h => ?_⟩
      rcases h with h | h | h
      · exact absurd h hnu
      · exact absurd (by rw [h.1, h.2]; rfl) hb
      · exact e3 h

end Verif.MaxAlg
