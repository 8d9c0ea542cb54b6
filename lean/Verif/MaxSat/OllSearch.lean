import Verif.MaxSat.Oll
import Verif.MaxSat.AlgProps

/-! # C30: OLL -/

namespace Verif.MaxAlg

open Verif.MaxSat (litVal clauseVal costC)

/-! ## the least weight of a conflict -/

theorem foldl_le {α : Type} {f : Nat → α → Nat} (hf : ∀ m a, f m a ≤ m) : ∀ (L : List α) (m : Nat), L.foldl f m ≤ m
  | [], _ => Nat.le_refl _
  | a :: L, m => Nat.le_trans (foldl_le hf L (f m a)) (hf m a)

theorem foldl_bound {α : Type} {f : Nat → α → Nat} (hf : ∀ m a, f m a ≤ m) {B : Nat} {a : α} (ha : ∀ m, f m a ≤ B) : ∀ {L : List α} (m : Nat), a ∈ L → L.foldl f m ≤ B
  | b :: L, m, h => by
    rw [List.foldl_cons]
    rcases List.mem_cons.1 h with rfl | h
    · exact Nat.le_trans (foldl_le hf L _) (ha m)
    · exact foldl_bound hf ha _ h

theorem foldl_pos {α : Type} {f : Nat → α → Nat} : ∀ {L : List α} (m : Nat), (∀ a ∈ L, ∀ m, 1 ≤ m → 1 ≤ f m a) → 1 ≤ m → 1 ≤ L.foldl f m
  | [], _, _, h => h
  | a :: L, m, hf, h => foldl_pos (f m a) (fun b hb => hf b (List.mem_cons_of_mem _ hb)) (hf a List.mem_cons_self m h)

theorem ite_lt_le (a m : Nat) : (if a < m then a else m) ≤ m ∧ (if a < m then a else m) ≤ a := by
  split <;> omega

/-- the literals that may be assumed -/
def Oll.Open (st : Oll) (p : Nat) : Prop := (∃ x ∈ st.soft, x.l = p ∧ x.act = false) ∨ p ∈ st.ca

/-- the least weight of a conflict is positive and every literal of the conflict has at least that weight -/
theorem minCore_spec {P : Prob} {st : Oll} {lb : Nat} (h : OI P st lb) {core : List Nat} (hc : ∀ p ∈ core, st.Open p) : 1 ≤ st.minCore core ∧ ∀ p ∈ core, st.Pend (st.minCore core) p := by
  have hle : ∀ (m p : Nat), (match st.bm p with
      | none => match (st.coreIdx p).bind fun i => st.soft[i]? with
        | none => m
        | some x => if x.w < m then x.w else m
      | some (_, _, w) => if w < (match (st.coreIdx p).bind fun i => st.soft[i]? with
        | none => m
        | some x => if x.w < m then x.w else m) then w else match (st.coreIdx p).bind fun i => st.soft[i]? with
        | none => m
        | some x => if x.w < m then x.w else m) ≤ m := by
    intro m p
    have h1 : (match (st.coreIdx p).bind fun i => st.soft[i]? with
        | none => m
        | some x => if x.w < m then x.w else m) ≤ m := by
      cases (st.coreIdx p).bind fun i => st.soft[i]? with
      | none => exact Nat.le_refl _
      | some x => exact (ite_lt_le _ _).1
    cases st.bm p with
    | none => exact h1
    | some e => exact Nat.le_trans (ite_lt_le _ _).1 h1
  unfold Oll.minCore
  constructor
  · refine foldl_pos _ (fun p hp m hm => ?_) (by decide)
    rcases hc p hp with ⟨x, hx, rfl, ha⟩ | hpc
    · obtain ⟨i, hi⟩ := List.getElem?_of_mem hx
      dsimp only
      rw [h.bmNone hx, coreIdx_of h.lits hi, Option.bind_some, hi]
      dsimp only
      have := (h.soft x hx).2
      split <;> omega
    · obtain ⟨id, b, w, t, c⟩ := h.card p hpc
      dsimp only
      rw [c.bm, h.idxNone hpc]
      dsimp only [Option.bind_none]
      have := c.pos
      split <;> omega
  · intro p hp
    rcases hc p hp with ⟨x, hx, rfl, ha⟩ | hpc
    · obtain ⟨i, hi⟩ := List.getElem?_of_mem hx
      refine .inl ⟨i, x, hi, rfl, ha, foldl_bound hle (fun m => ?_) _ hp⟩
      rw [h.bmNone hx, coreIdx_of h.lits hi, Option.bind_some, hi]
      exact (ite_lt_le _ _).2
    · obtain ⟨id, b, w, t, c⟩ := h.card p hpc
      refine .inr ⟨hpc, id, b, w, c.bm, foldl_bound hle (fun m => ?_) _ hp⟩
      rw [c.bm, h.idxNone hpc]
      exact (ite_lt_le _ _).2

/-! ## the next weight -/

theorem nextW_spec (st : Oll) (w : Nat) (h : 1 ≤ w) : 1 ≤ st.nextW w ∧ st.nextW w ≤ w ∧ (1 < w → st.nextW w < w) := by
  unfold Oll.nextW
  have : ∀ (L : List Nat) (n : Nat), 1 ≤ n → n ≤ w → (1 < w → n < w) →
      1 ≤ L.foldl (fun nw x => if nw < x ∧ x < w then x else nw) n ∧ L.foldl (fun nw x => if nw < x ∧ x < w then x else nw) n ≤ w ∧
        (1 < w → L.foldl (fun nw x => if nw < x ∧ x < w then x else nw) n < w) := by
    intro L
    induction L with
    | nil => intro n h1 h2 h3; exact ⟨h1, h2, h3⟩
    | cons a L ih =>
      intro n h1 h2 h3
      rw [List.foldl_cons]
      split
      · exact ih a (by omega) (by omega) (by omega)
      · exact ih n h1 h2 h3
  exact this _ 1 (Nat.le_refl _) h (fun h => h)

theorem filter_all_length {l : List Nat} (h : ∀ x ∈ l, 1 ≤ x) : (l.filter fun x => decide (1 ≤ x)).length = l.length := by
  rw [List.filter_eq_self.2 fun x hx => decide_eq_true (h x hx)]

theorem OInv.pos {P : Prob} {st : Oll} {lb : Nat} {X : (Nat → Bool) → Nat} {Y : (Nat → Bool) → Prop} (h : OInv P st lb X Y) : (∀ x ∈ st.soft, 1 ≤ x.w) ∧ ∀ p ∈ st.ca, 1 ≤ st.cw p := by
  refine ⟨fun x hx => (h.soft x hx).2, fun p hp => ?_⟩
  obtain ⟨id, b, w, t, c⟩ := h.card p hp
  unfold Oll.cw
  rw [c.bm]; exact c.pos

theorem enough_one {P : Prob} {st : Oll} {lb : Nat} (h : OI P st lb) : st.enough 1 = true := by
  unfold Oll.enough
  dsimp only
  rw [filter_all_length]
  · simp
  · intro x hx
    rcases List.mem_append.1 hx with hx | hx
    · obtain ⟨y, hy, rfl⟩ := List.mem_map.1 hx; exact h.pos.1 y hy
    · obtain ⟨y, hy, rfl⟩ := List.mem_map.1 hx; exact h.pos.2 y hy

/-- the search for the next weight ends -/
theorem diversity_spec {P : Prob} {st : Oll} {lb : Nat} (h : OI P st lb) (multi : Bool) : ∀ (f : Nat) (next : Bool) (w : Nat), 1 ≤ w → w + (if multi || next then 0 else 1) < f →
    ∃ w', st.diversity multi f next w = some w' ∧ 1 ≤ w' ∧ w' ≤ w ∧ (multi = true → 1 < w → w' < w)
  | 0, _, _, _, hf => absurd hf (Nat.not_lt_zero _)
  | f + 1, next, w, h1, hf => by
    unfold Oll.diversity
    dsimp only
    obtain ⟨s1, s2, s3⟩ := nextW_spec st w h1
    cases hm : (multi || next) with
    | true =>
      rw [hm] at hf
      rw [if_pos rfl] at hf ⊢
      split
      · exact ⟨_, rfl, s1, s2, fun _ h => s3 h⟩
      · rename_i hen
        have hlt : st.nextW w < w := by
          refine s3 (Classical.byContradiction fun hn => hen ?_)
          have : st.nextW w = 1 := by omega
          rw [this]; exact enough_one h
        obtain ⟨w', e1, e2, e3, e4⟩ := diversity_spec h multi f (next || !multi) (st.nextW w) s1 (by
          rw [if_pos (by cases multi <;> simp)]; omega)
        exact ⟨w', e1, e2, by omega, fun _ _ => by omega⟩
    | false =>
      have hmf : multi = false := by
        cases multi
        · rfl
        · cases hm
      rw [hm] at hf
      rw [if_neg Bool.false_ne_true] at hf
      rw [if_neg Bool.false_ne_true]
      split
      · refine ⟨_, rfl, h1, Nat.le_refl _, fun e => ?_⟩
        rw [hmf] at e; cases e
      · obtain ⟨w', e1, e2, e3, e4⟩ := diversity_spec h multi f (next || !multi) w h1 (by
          rw [if_pos (by rw [hmf]; simp)]; omega)
        exact ⟨w', e1, e2, e3, e4⟩

/-! ## the searches -/

theorem mem_asm {st : Oll} {w a : Nat} : a ∈ st.asm w ↔ (∃ x ∈ st.soft, x.act = false ∧ w ≤ x.w ∧ a = neg x.l) ∨ ∃ p ∈ st.ca, w ≤ st.cw p ∧ a = neg p := by
  unfold Oll.asm
  rw [List.mem_append, List.mem_map, List.mem_map]
  constructor
  · rintro (⟨x, hx, rfl⟩ | ⟨p, hp, rfl⟩)
    · obtain ⟨h1, h2⟩ := List.mem_filter.1 hx
      simp only [Bool.and_eq_true, Bool.not_eq_true', decide_eq_true_eq] at h2
      exact .inl ⟨x, h1, h2.1, h2.2, rfl⟩
    · obtain ⟨h1, h2⟩ := List.mem_filter.1 hp
      exact .inr ⟨p, h1, of_decide_eq_true h2, rfl⟩
  · rintro (⟨x, hx, h1, h2, rfl⟩ | ⟨p, hp, h1, rfl⟩)
    · exact .inl ⟨x, List.mem_filter.2 ⟨hx, by simp [h1, h2]⟩, rfl⟩
    · exact .inr ⟨p, List.mem_filter.2 ⟨hp, decide_eq_true h1⟩, rfl⟩

theorem open_of_asm {st : Oll} {w p : Nat} (h : neg p ∈ st.asm w) : st.Open p := by
  rcases mem_asm.1 h with ⟨x, hx, h1, _, e⟩ | ⟨q, hq, _, e⟩
  · exact .inl ⟨x, hx, by rw [← neg_neg p, e, neg_neg], h1⟩
  · refine .inr ?_
    rw [show p = q by rw [← neg_neg p, e, neg_neg]]; exact hq

/-- a relaxed conflict -/
theorem OInv.conflict {P : Prob} {st : Oll} {lb w : Nat} (h : OI P st lb) {O : Orc} (hO : O.Ok) {k : Nat} {as core : List Nat} (ha : ∀ a ∈ as, a ∈ st.asm w) (he : O k st.s as = .unsat core) :
    1 ≤ st.minCore core ∧ ∃ st', st.relaxW (st.minCore core) core = some st' ∧ OI P st' (lb + st.minCore core) := by
  have ho := hO k st.s as
  rw [he] at ho
  obtain ⟨o1, o2, o3⟩ := ho
  obtain ⟨m1, m2⟩ := minCore_spec h fun p hp => open_of_asm (ha _ (o1 p hp))
  exact ⟨m1, relaxW_spec h m1 o2 m2 o3⟩

/-- a model under all assumptions -/
theorem OInv.best {P : Prob} {st : Oll} {lb w : Nat} (h : OI P st lb) {m : Nat → Bool} {as : List Nat} (hm : st.s.Holds m) (ht : ∀ a ∈ as, litVal m a = true) (ha : ∀ a ∈ st.asm w, a ∈ as)
    (hs : ∀ x ∈ st.soft, w ≤ x.w) (hc : ∀ p ∈ st.ca, w ≤ st.cw p) : costC m P.soft ≤ lb :=
  h.allTrue hm (fun x hx hxa => ht _ (ha _ (mem_asm.2 (.inl ⟨x, hx, hxa, hs x hx, rfl⟩)))) fun p hp => ht _ (ha _ (mem_asm.2 (.inr ⟨p, hp, hc p hp, rfl⟩)))

theorem OInv.holds {P : Prob} {st : Oll} {lb : Nat} {X : (Nat → Bool) → Nat} {Y : (Nat → Bool) → Prop} (h : OInv P st lb X Y) {m : Nat → Bool} (hm : st.s.Holds m) : P.Holds m :=
  (Prob.relaxed_sound (h.ext.holds hm)).1

/-- the hard clauses are unsatisfiable if the solver is without assumptions -/
theorem OInv.unsat {P : Prob} {st : Oll} {lb : Nat} (h : OI P st lb) {O : Orc} (hO : O.Ok) {k : Nat} {core : List Nat} (he : O k st.s [] = .unsat core) : ∀ u, ¬ P.Holds u := by
  intro u hu
  obtain ⟨v', _, g2, _⟩ := h.complete u hu
  have ho := hO k st.s []
  rw [he] at ho
  obtain ⟨l, hl, _⟩ := ho.2.2 v' g2
  exact absurd (ho.1 l hl) (by simp)

theorem init_asm {P : Prob} {w a : Nat} : a ∈ P.ollInit.asm w ↔ ∃ x ∈ P.ollInit.soft, w ≤ x.w ∧ a = neg x.l := by
  rw [mem_asm]
  constructor
  · rintro (⟨x, hx, _, h2, h3⟩ | ⟨p, hp, _⟩)
    · exact ⟨x, hx, h2, h3⟩
    · cases hp
  · rintro ⟨x, hx, h2, h3⟩
    refine .inl ⟨x, hx, ?_, h2, h3⟩
    obtain ⟨ci, _, rfl⟩ := List.mem_map.1 hx
    rfl

/-- the weighted search -/
theorem ollW_right {P : Prob} (hw : P.WF) (hp : P.Pos) {O : Orc} (hO : O.Ok) (H : Nat → Bool) : ∀ (f k : Nat) (st : Oll) (as : List Nat) (minW nb lb ub : Nat) (u : Nat → Bool), 1 ≤ minW →
    (nb = 0 → st = P.ollInit ∧ as = [] ∧ lb = 0 ∧ (P.soft.map (·.2)).sum + minW + 2 ≤ f) →
    (nb ≠ 0 → OI P st lb ∧ (∃ w ≤ minW, ∀ a, a ∈ as ↔ a ∈ st.asm w) ∧ P.Holds u ∧ costC u P.soft = ub ∧ (ub - lb) + minW + 1 ≤ f) →
    ∃ r, ollW P O f k st as minW nb lb ub u = some r ∧ Right P O H r
  | 0, _, _, _, _, nb, _, _, _, _, h0, hn => by
    by_cases e : nb = 0
    · obtain ⟨_, _, _, h⟩ := h0 e; omega
    · obtain ⟨_, _, _, _, h⟩ := hn e; omega
  | f + 1, k, st, as, minW, nb, lb, ub, u, h1, h0, hn => by
    have hI : OI P st lb := by
      by_cases e : nb = 0
      · obtain ⟨rfl, _, rfl, _⟩ := h0 e; exact ollInit_OI hw hp
      · exact (hn e).1
    unfold ollW
    have ho := hO k st.s as
    cases he : O k st.s as with
    | cancel => exact ⟨_, rfl, .inl ⟨_, _, _, he⟩⟩
    | sat m =>
      rw [he] at ho
      dsimp only
      have hm : P.Holds m := hI.holds ho.1
      obtain ⟨u', hu'⟩ : ∃ u', (if decide (st.cost m < ub ∨ nb = 0) = true then m else u) = u' := ⟨_, rfl⟩
      obtain ⟨ub', hub'⟩ : ∃ ub', (if decide (st.cost m < ub ∨ nb = 0) = true then st.cost m else ub) = ub' := ⟨_, rfl⟩
      rw [hu', hub']
      have hres : P.Holds u' ∧ costC u' P.soft = ub' ∧ ub' ≤ st.cost m ∧ (nb ≠ 0 → ub' ≤ ub) := by
        rw [← hu', ← hub']
        by_cases hb : st.cost m < ub ∨ nb = 0
        · rw [decide_eq_true hb, if_pos rfl, if_pos rfl]
          exact ⟨hm, (hI.cost m).symm, Nat.le_refl _, fun hz => by rcases hb with hb | hb; exacts [Nat.le_of_lt hb, absurd hb hz]⟩
        · rw [decide_eq_false hb, if_neg (by simp), if_neg (by simp)]
          have hz : nb ≠ 0 := fun e => hb (.inr e)
          obtain ⟨_, _, g1, g2, _⟩ := hn hz
          exact ⟨g1, g2, by omega, fun _ => Nat.le_refl _⟩
      obtain ⟨r1, r2, r3, r4⟩ := hres
      split
      · rename_i hz
        obtain ⟨e1, e2, e3, hf⟩ := h0 hz
        obtain ⟨w, d1, d2, d3, _⟩ := diversity_spec hI false (minW + 2) false minW h1 (by simp)
        rw [d1]
        show ∃ r, ollW P O f (k + 1) st _ minW 1 lb ub' u' = some r ∧ _
        refine ollW_right hw hp hO H f (k + 1) st _ minW 1 lb ub' u' h1 (fun e => absurd e (by omega)) fun _ => ⟨hI, ⟨w, d3, fun a => ?_⟩, r1, r2, ?_⟩
        · subst e1 e2
          rw [init_asm, List.nil_append, List.mem_map]
          constructor
          · rintro ⟨x, hx, rfl⟩
            obtain ⟨g1, g2⟩ := List.mem_filter.1 hx
            exact ⟨x, g1, of_decide_eq_true g2, rfl⟩
          · rintro ⟨x, hx, g1, rfl⟩
            exact ⟨x, List.mem_filter.2 ⟨hx, decide_eq_true g1⟩, rfl⟩
        · have : costC u' P.soft ≤ (P.soft.map (·.2)).sum := costC_le_total _ _
          omega
      · rename_i hz
        obtain ⟨_, ⟨w, hwm, has⟩, g1, g2, hf⟩ := hn hz
        split
        · rename_i hall
          unfold Oll.allConsidered at hall
          rw [Bool.and_eq_true, List.all_eq_true, List.all_eq_true] at hall
          have hb := hI.best ho.1 ho.2 (fun a ha => (has a).2 ha) (fun x hx => Nat.le_trans hwm (of_decide_eq_true (hall.1 x hx))) fun p hp => Nat.le_trans hwm (of_decide_eq_true (hall.2 p hp))
          refine ⟨_, rfl, r1, r2, fun v hv => ?_⟩
          have := OInv.low hw hI hv
          have := hI.cost m
          omega
        · rename_i hall
          have h2 : 1 < minW := by
            refine Classical.byContradiction fun hle => hall ?_
            unfold Oll.allConsidered
            rw [Bool.and_eq_true, List.all_eq_true, List.all_eq_true]
            exact ⟨fun x hx => decide_eq_true (by have := hI.pos.1 x hx; omega), fun p hp => decide_eq_true (by have := hI.pos.2 p hp; omega)⟩
          obtain ⟨w', d1, d2, d3, d4⟩ := diversity_spec hI true (minW + 2) false minW h1 (by simp)
          have d5 := d4 rfl h2
          rw [d1]
          show ∃ r, ollW P O f (k + 1) st _ w' (nb + 1) lb ub' u' = some r ∧ _
          refine ollW_right hw hp hO H f (k + 1) st _ w' (nb + 1) lb ub' u' d2 (fun e => absurd e (by omega)) fun _ => ⟨hI, ⟨w', Nat.le_refl _, fun a => Iff.rfl⟩, r1, r2, ?_⟩
          have := r4 hz
          omega
    | unsat core =>
      dsimp only
      split
      · rename_i hz
        obtain ⟨e1, e2, e3, hf⟩ := h0 hz
        subst e2
        exact ⟨_, rfl, hI.unsat hO he⟩
      · rename_i hz
        obtain ⟨_, ⟨w, hwm, has⟩, g1, g2, hf⟩ := hn hz
        obtain ⟨m1, st', c1, c2⟩ := hI.conflict hO (w := w) (fun a ha => (has a).1 ha) he
        have hlow := OInv.low hw c2 g1
        split
        · rename_i hlb
          refine ⟨_, rfl, g1, g2, fun v hv => ?_⟩
          have := OInv.low hw c2 hv
          omega
        · rename_i hlb
          rw [c1]
          show ∃ r, ollW P O f (k + 1) st' _ minW nb _ ub u = some r ∧ _
          exact ollW_right hw hp hO H f (k + 1) st' _ minW nb _ ub u h1 (fun e => absurd e hz) fun _ => ⟨c2, ⟨minW, Nat.le_refl _, fun a => Iff.rfl⟩, g1, g2, by omega⟩

/-! ## unweighted -/

/-- all weights are 1 -/
structure Oll.One (st : Oll) : Prop where
  soft : ∀ x ∈ st.soft, x.w = 1
  card : ∀ p e, st.bm p = some e → e.2.2 = 1

theorem upd_one {f : Nat → Option (Nat × Nat × Nat)} (h : ∀ p e, f p = some e → e.2.2 = 1) (o i b : Nat) : ∀ p e, upd f o (i, b, 1) p = some e → e.2.2 = 1 := by
  intro p e he
  by_cases hp : p = o
  · subst hp
    rw [upd_self] at he
    injection he with he
    rw [← he]
  · rw [upd_ne hp] at he; exact h p e he

theorem Oll.One.bump {st st' : Oll} (h : st.One) {id b : Nat} (e : st.bump id b 1 = some st') : st'.One := by
  unfold Oll.bump at e
  split at e
  · cases e
  · rw [Option.map_eq_some_iff] at e
    obtain ⟨r, _, e⟩ := e
    split at e
    · rw [← e]; exact ⟨h.soft, h.card⟩
    · rw [← e]; exact ⟨h.soft, upd_one h.card _ _ _⟩

theorem Oll.One.step {st : Oll} (h : st.One) (p : Nat) : Oll.cardU (st.softU p) p = Oll.cardW 1 (st.softW 1 p) p ∧ ∀ st', Oll.cardU (st.softU p) p = some st' → st'.One := by
  have hs : st.softU p = st.softW 1 p ∧ (st.softU p).One := by
    unfold Oll.softU Oll.softW
    cases hi : st.coreIdx p with
    | none => exact ⟨rfl, h⟩
    | some i =>
      dsimp only
      cases hx : st.soft[i]? with
      | none => exact ⟨rfl, h⟩
      | some x =>
        dsimp only
        have h1 := h.soft x (List.mem_of_getElem? hx)
        rw [if_neg (by omega)]
        refine ⟨rfl, fun y hy => ?_, h.card⟩
        rcases List.mem_or_eq_of_mem_set hy with hy | rfl
        · exact h.soft y hy
        · exact h1
  rw [← hs.1]
  obtain ⟨s1, hs1⟩ : ∃ s1, st.softU p = s1 := ⟨_, rfl⟩
  have ho := hs.2
  rw [hs1] at ho ⊢
  unfold Oll.cardU Oll.cardW
  cases hb : s1.bm p with
  | none => exact ⟨rfl, fun st' e => by rw [← Option.some.inj e]; exact ho⟩
  | some e =>
    obtain ⟨id, b, w⟩ := e
    dsimp only
    have hw1 : w = 1 := ho.card p _ hb
    rw [if_pos hw1]
    exact ⟨rfl, fun st' e => Oll.One.bump (st := { s1 with ca := s1.ca.erase p, rc := s1.rc ++ [p] }) ⟨ho.soft, ho.card⟩ e⟩

theorem Oll.One.all : ∀ (core : List Nat) (st : Oll), st.One → core.foldlM (fun st p => Oll.cardU (st.softU p) p) st = core.foldlM (fun st p => Oll.cardW 1 (st.softW 1 p) p) st ∧
    ∀ st', core.foldlM (fun st p => Oll.cardU (st.softU p) p) st = some st' → st'.One
  | [], st, h => ⟨rfl, fun st' e => by rw [← Option.some.inj e]; exact h⟩
  | p :: core, st, h => by
    obtain ⟨h1, h2⟩ := h.step p
    rw [List.foldlM_cons, List.foldlM_cons, ← h1]
    cases hc : Oll.cardU (st.softU p) p with
    | none => exact ⟨rfl, fun st' e => by cases e⟩
    | some s1 => exact Oll.One.all core s1 (h2 s1 hc)

theorem Oll.One.close {st st' : Oll} (h : st.One) (e : st.close 1 = some st') : st'.One := by
  unfold Oll.close at e
  split at e
  · split at e
    · cases e
    · rw [← Option.some.inj e]; exact ⟨h.soft, upd_one h.card _ _ _⟩
  · rw [← Option.some.inj e]
    split
    · exact ⟨h.soft, h.card⟩
    · exact h

theorem Oll.One.relax {st : Oll} (h : st.One) (core : List Nat) : st.relaxU core = st.relaxW 1 core ∧ ∀ st', st.relaxU core = some st' → st'.One := by
  obtain ⟨h1, h2⟩ := Oll.One.all core { st with rs := [], rc := [] } ⟨h.soft, h.card⟩
  unfold Oll.relaxU Oll.relaxW
  refine ⟨by rw [h1], fun st' e => ?_⟩
  obtain ⟨s1, e1, e2⟩ := Option.bind_eq_some_iff.1 e
  exact (h2 s1 e1).close e2

/-- the unweighted search -/
theorem ollU_right {P : Prob} (hw : P.WF) (h1 : P.Unit) {O : Orc} (hO : O.Ok) (H : Nat → Bool) : ∀ (f k : Nat) (st : Oll) (as : List Nat) (nb lb ub : Nat) (u : Nat → Bool),
    (nb = 0 → st = P.ollInit ∧ as = [] ∧ lb = 0 ∧ (P.soft.map (·.2)).sum + 2 ≤ f) →
    (nb ≠ 0 → OI P st lb ∧ st.One ∧ (∀ a, a ∈ as ↔ a ∈ st.asm 0) ∧ P.Holds u ∧ costC u P.soft = ub ∧ (ub - lb) + 1 ≤ f) →
    ∃ r, ollU P O f k st as nb lb ub u = some r ∧ Right P O H r
  | 0, _, _, _, nb, _, _, _, h0, hn => by
    by_cases e : nb = 0
    · obtain ⟨_, _, _, h⟩ := h0 e; omega
    · obtain ⟨_, _, _, _, _, h⟩ := hn e; omega
  | f + 1, k, st, as, nb, lb, ub, u, h0, hn => by
    have hp : P.Pos := fun c hc => Nat.le_of_eq (h1 c hc).symm
    have hI : OI P st lb := by
      by_cases e : nb = 0
      · obtain ⟨rfl, _, rfl, _⟩ := h0 e; exact ollInit_OI hw hp
      · exact (hn e).1
    unfold ollU
    have ho := hO k st.s as
    cases he : O k st.s as with
    | cancel => exact ⟨_, rfl, .inl ⟨_, _, _, he⟩⟩
    | sat m =>
      rw [he] at ho
      dsimp only
      have hm : P.Holds m := hI.holds ho.1
      have hcost := hI.cost m
      split
      · rename_i hz
        obtain ⟨e1, e2, e3, hf⟩ := h0 hz
        split
        · exact ⟨_, rfl, hm, hcost.symm, fun v hv => by omega⟩
        · refine ollU_right hw h1 hO H f (k + 1) st _ 1 lb _ m (fun e => absurd e (by omega)) fun _ => ⟨hI, ?_, fun a => ?_, hm, hcost.symm, ?_⟩
          · subst e1
            refine ⟨fun x hx => ?_, fun p e he => by cases he⟩
            obtain ⟨ci, hci, rfl⟩ := List.mem_map.1 hx
            exact h1 _ (List.fst_mem_of_mem_zipIdx hci)
          · subst e1 e2
            rw [init_asm, List.nil_append, List.mem_map]
            constructor
            · rintro ⟨x, hx, rfl⟩
              exact ⟨x, hx, Nat.zero_le _, rfl⟩
            · rintro ⟨x, hx, _, rfl⟩
              exact ⟨x, hx, rfl⟩
          · have : costC m P.soft ≤ (P.soft.map (·.2)).sum := costC_le_total _ _
            omega
      · rename_i hz
        obtain ⟨_, _, has, g1, g2, hf⟩ := hn hz
        have hb := hI.best ho.1 ho.2 (fun a ha => (has a).2 ha) (fun x hx => Nat.zero_le _) fun p hp => Nat.zero_le _
        refine ⟨_, rfl, hm, hcost.symm, fun v hv => ?_⟩
        have := OInv.low hw hI hv
        omega
    | unsat core =>
      rw [he] at ho
      dsimp only
      split
      · rename_i hz
        obtain ⟨e1, e2, e3, hf⟩ := h0 hz
        subst e2
        exact ⟨_, rfl, hI.unsat hO he⟩
      · rename_i hz
        obtain ⟨_, hone, has, g1, g2, hf⟩ := hn hz
        have hpend : ∀ p ∈ core, st.Pend 1 p := fun p hp => by
          rcases open_of_asm ((has _).1 (ho.1 p hp)) with ⟨x, hx, rfl, ha⟩ | hc
          · obtain ⟨i, hi⟩ := List.getElem?_of_mem hx
            exact .inl ⟨i, x, hi, rfl, ha, (hI.soft x hx).2⟩
          · obtain ⟨id, b, w, t, c⟩ := hI.card p hc
            exact .inr ⟨hc, id, b, w, c.bm, c.pos⟩
        obtain ⟨st', c1, c2⟩ := relaxW_spec hI (mc := 1) (by omega) ho.2.1 hpend ho.2.2
        obtain ⟨x1, x2⟩ := hone.relax core
        have hlow := OInv.low hw c2 g1
        split
        · rename_i hlb
          refine ⟨_, rfl, g1, g2, fun v hv => ?_⟩
          have := OInv.low hw c2 hv
          omega
        · rename_i hlb
          rw [x1, c1]
          show ∃ r, ollU P O f (k + 1) st' _ nb _ ub u = some r ∧ _
          exact ollU_right hw h1 hO H f (k + 1) st' _ nb _ ub u (fun e => absurd e hz) fun _ => ⟨c2, x2 st' (x1.trans c1), fun a => Iff.rfl, g1, g2, by omega⟩

theorem one_le_curWeight (ws : List Nat) : 1 ≤ curWeight ws := by
  unfold curWeight
  have : ∀ (ws : List Nat) (a : Nat), a ≤ ws.foldl max a := by
    intro ws
    induction ws with
    | nil => exact fun a => Nat.le_refl _
    | cons x xs ih => exact fun a => Nat.le_trans (Nat.le_max_left a x) (ih _)
  exact this ws 1

/-- enough rounds: every round raises the lower bound or lowers the least weight considered -/
def Prob.ollFuel (P : Prob) : Nat := (P.soft.map (·.2)).sum + curWeight (P.soft.map (·.2)) + 2

/-- C30 for OLL: for positive weights and every behaviour of the SAT solver, the search ends; it reports the least cost with a model of that cost, or that the hard clauses are unsatisfiable, or it
was cancelled.  (The handler is asked only by the SAT solver.) -/
theorem C30_oll {P : Prob} (hw : P.WF) (hp : P.Pos) {O : Orc} (hO : O.Ok) {f : Nat} (hf : P.ollFuel ≤ f) : ∃ r, oll P O f = some r ∧ Right P O (fun _ => true) r := by
  unfold Prob.ollFuel at hf
  unfold oll
  dsimp only
  split
  · rename_i h1
    refine ollU_right hw (fun c hc => ?_) hO _ f 0 _ _ 0 0 _ _ (fun _ => ⟨rfl, rfl, rfl, by omega⟩) fun e => absurd rfl e
    have := le_curWeight (List.mem_map.2 ⟨c, hc, rfl⟩ : c.2 ∈ P.soft.map (·.2))
    have := hp c hc
    omega
  · exact ollW_right hw hp hO _ f 0 _ _ _ 0 0 _ _ (one_le_curWeight _) (fun _ => ⟨rfl, rfl, rfl, hf⟩) fun e => absurd rfl e

/-- the same weights and different ones -/
example : ∃ O : Orc, O.Ok ∧ (∃ u, oll (exP 1 1 1) O 50 = some (.opt 1 u)) ∧ (∃ u, oll (exP 4 2 1) O 50 = some (.opt 1 u)) ∧ ∃ u, oll (exP 5 4 3) O 50 = some (.opt 3 u) := by
  obtain ⟨O, hO, hc⟩ := exists_ok
  refine ⟨O, hO, ?_, ?_, ?_⟩
  · obtain ⟨r, h, hr⟩ := C30_oll (exP_wf 1 1 1) (exP_pos (by omega) (by omega) (by omega)) hO (f := 50) (by decide)
    obtain ⟨u, rfl⟩ := exP_min hc hr
    exact ⟨u, h⟩
  · obtain ⟨r, h, hr⟩ := C30_oll (exP_wf 4 2 1) (exP_pos (by omega) (by omega) (by omega)) hO (f := 50) (by decide)
    obtain ⟨u, rfl⟩ := exP_min hc hr
    exact ⟨u, h⟩
  · obtain ⟨r, h, hr⟩ := C30_oll (exP_wf 5 4 3) (exP_pos (by omega) (by omega) (by omega)) hO (f := 50) (by decide)
    obtain ⟨u, rfl⟩ := exP_min hc hr
    exact ⟨u, h⟩

end Verif.MaxAlg
