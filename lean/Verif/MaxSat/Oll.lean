import Verif.MaxSat.LinearSUW

/-! # OLL (alg_oll.go) -/

namespace Verif.MaxAlg

open Verif.MaxSat (litVal clauseVal costC)

/-! ## model -/

/-- a soft clause with its weight, its assumption literal and its entry in `activeSoft` -/
structure Sft where
  cl : List Nat
  w : Nat
  l : Nat
  act : Bool

/-- a sorted set of literals (`treeset` with `Int32Comparator`) -/
def insA (p : Nat) : List Nat → List Nat
  | [] => [p]
  | q :: qs => if p = q then q :: qs else if p < q then p :: q :: qs else q :: insA p qs

/-- an entry of a map -/
def upd {α : Type} (f : Nat → Option α) (p : Nat) (a : α) : Nat → Option α := fun q => if q = p then some a else f q

/-- the variables of the search: `m.softClauses` with `activeSoft`, `softCardinality`, `boundMapping` (identifier, bound, weight), `cardinalityAssumptions`, the solver, `softRelax` and
`cardinalityRelax` -/
structure Oll where
  soft : List Sft
  cards : List Tot := []
  bm : Nat → Option (Nat × Nat × Nat) := fun _ => none
  ca : List Nat := []
  s : Sol
  rs : List Nat := []
  rc : List Nat := []

/-- alg_oll.go:359-384 `initRelaxation`, `rebuildSolver` -/
def Prob.ollInit (P : Prob) : Oll := { soft := P.soft.zipIdx.map fun ci => ⟨ci.1.1, ci.1.2, 2 * (P.n + ci.2), false⟩, s := P.relaxed 0 }

/-- `coreMapping`: the soft clause of an assumption literal; the literals are distinct -/
def Oll.coreIdx (st : Oll) (p : Nat) : Option Nat := st.soft.findIdx? fun x => decide (x.l = p)

/-- alg_oll.go:97-108, 288-297, 313-322: the bound of a cardinality constraint is raised; `none` for an identifier or a bound out of range -/
def Oll.bump (st : Oll) (id b w : Nat) : Option Oll := match st.cards[id]? with
  | none => none
  | some t => (t.incUpdate st.s [] (b + 1)).map fun r => match r.1.out[b + 1]? with
    | none => { st with cards := st.cards.set id r.1, s := r.2.1 }
    | some o => { st with cards := st.cards.set id r.1, s := r.2.1, bm := upd st.bm o (id, b + 1, w), ca := insA o st.ca }

/-- alg_oll.go:88-91: a soft clause of the conflict (unweighted) -/
def Oll.softU (st : Oll) (p : Nat) : Oll := match st.coreIdx p with
  | none => st
  | some i => match st.soft[i]? with
    | none => st
    | some x => { st with soft := st.soft.set i { x with act := true }, rs := st.rs ++ [p] }

/-- alg_oll.go:93-109: a cardinality constraint of the conflict (unweighted) -/
def Oll.cardU (st : Oll) (p : Nat) : Option Oll := match st.bm p with
  | none => some st
  | some (id, b, _) => Oll.bump { st with ca := st.ca.erase p, rc := st.rc ++ [p] } id b 1

/-- alg_oll.go:219-228: the least weight in the conflict -/
def Oll.minCore (st : Oll) (core : List Nat) : Nat := core.foldl (fun mc p =>
  let mc := match (st.coreIdx p).bind fun i => st.soft[i]? with
    | none => mc
    | some x => if x.w < mc then x.w else mc
  match st.bm p with
    | none => mc
    | some (_, _, w) => if w < mc then w else mc) (2 ^ 63 - 1)

/-- alg_oll.go:244-280: a soft clause of the conflict is split if its weight is greater; the new literal is the next variable of the solver (lines 256-259) -/
def Oll.softW (mc : Nat) (st : Oll) (p : Nat) : Oll := match st.coreIdx p with
  | none => st
  | some i => match st.soft[i]? with
    | none => st
    | some x => if mc < x.w then
        { st with soft := st.soft.set i { x with w := x.w - mc } ++ [⟨x.cl, mc, 2 * st.s.n, true⟩], s := ⟨st.s.n + 1, (x.cl ++ [2 * st.s.n]) :: st.s.cs⟩, rs := st.rs ++ [2 * st.s.n] }
      else { st with soft := st.soft.set i { x with act := true }, rs := st.rs ++ [p] }

/-- alg_oll.go:281-324: a cardinality constraint of the conflict, duplicated if its weight is greater -/
def Oll.cardW (mc : Nat) (st : Oll) (p : Nat) : Option Oll := match st.bm p with
  | none => some st
  | some (id, b, w) => if w = mc then Oll.bump { st with ca := st.ca.erase p, rc := st.rc ++ [p] } id b mc
    else match st.cards[id]? with
      | none => none
      | some t => match (Tot.build { inc := true } st.s t.ilits b).1.out[b]? with
        | none => none
        | some o => Oll.bump { st with s := (Tot.build { inc := true } st.s t.ilits b).2, cards := st.cards ++ [(Tot.build { inc := true } st.s t.ilits b).1],
                                       bm := upd (upd st.bm o (st.cards.length, b, mc)) p (id, b, w - mc), rc := st.rc ++ [o] } st.cards.length b mc

/-- alg_oll.go:112-128, 326-342: the constraint for the literals of the conflict -/
def Oll.close (mc : Nat) (st : Oll) : Option Oll :=
  if 1 < st.rs.length + st.rc.length then match (Tot.build { inc := true } st.s (st.rs ++ st.rc) 1).1.out[1]? with
    | none => none
    | some o => some { st with s := (Tot.build { inc := true } st.s (st.rs ++ st.rc) 1).2, cards := st.cards ++ [(Tot.build { inc := true } st.s (st.rs ++ st.rc) 1).1],
                               bm := upd st.bm o (st.cards.length, 1, mc), ca := insA o st.ca }
  else some (if st.rs.length = 1 ∧ st.rc.length = 0 then { st with s := st.s.add st.rs } else st)

/-- alg_oll.go:83-128 -/
def Oll.relaxU (st : Oll) (core : List Nat) : Option Oll := (core.foldlM (fun st p => Oll.cardU (st.softU p) p) { st with rs := [], rc := [] }).bind (Oll.close 1)

/-- alg_oll.go:239-342 -/
def Oll.relaxW (mc : Nat) (st : Oll) (core : List Nat) : Option Oll := (core.foldlM (fun st p => Oll.cardW mc (st.softW mc p) p) { st with rs := [], rc := [] }).bind (Oll.close mc)

/-- the weight of an entry of `boundMapping` -/
def Oll.cw (st : Oll) (p : Nat) : Nat := match st.bm p with
  | none => 0
  | some (_, _, w) => w

/-- the assumptions (alg_oll.go:130-138 for the weight 0, 343-354, 198-209, and 177-181 where no soft clause is active) -/
def Oll.asm (st : Oll) (minW : Nat) : List Nat :=
  (st.soft.filter fun x => !x.act && decide (minW ≤ x.w)).map (fun x => neg x.l) ++ (st.ca.filter fun p => decide (minW ≤ st.cw p)).map neg

/-- algorithm.go:170 `computeCostModel` on the split soft clauses -/
def Oll.cost (st : Oll) (u : Nat → Bool) : Nat := costC u (st.soft.map fun x => (x.cl, x.w))

/-- alg_oll.go:51-140, the loop of `unweighted` -/
def ollU (P : Prob) (O : Orc) : Nat → Nat → Oll → List Nat → Nat → Nat → Nat → (Nat → Bool) → Option Res
  | 0, _, _, _, _, _, _, _ => none
  | f + 1, k, st, as, nb, lb, ub, u => match O k st.s as with
    | .cancel => some .cancel
    | .sat v => if nb = 0 then
          if st.cost v = 0 then some (.opt (st.cost v) v) else ollU P O f (k + 1) st (as ++ st.soft.map fun x => neg x.l) 1 lb (st.cost v) v
        else some (.opt (st.cost v) v)
    | .unsat core => if nb = 0 then some .unsat
        else if lb + 1 = ub then some (.opt ub u)
        else (st.relaxU core).bind fun st => ollU P O f (k + 1) st (st.asm 0) nb (lb + 1) ub u

/-- alg_oll.go:425 `findNextWeight` -/
def Oll.nextW (st : Oll) (weight : Nat) : Nat :=
  (st.soft.map (·.w) ++ st.ca.map st.cw).foldl (fun nw w => if nw < w ∧ w < weight then w else nw) 1

/-- alg_oll.go:398-415: enough soft clauses and constraints for their number of weights -/
def Oll.enough (st : Oll) (w : Nat) : Bool :=
  let ws := (st.soft.map (·.w) ++ st.ca.map st.cw).filter fun x => decide (w ≤ x)
  decide (5 * ws.eraseDups.length < 4 * ws.length) || decide (ws.length = st.soft.length + st.ca.length)

/-- alg_oll.go:386 `findNextWeightDiversity`; `multi` is `m.nbSatisfiable > 1`, `next` is `findNext` -/
def Oll.diversity (st : Oll) (multi : Bool) : Nat → Bool → Nat → Option Nat
  | 0, _, _ => none
  | f + 1, next, w =>
    let w := if multi || next then st.nextW w else w
    if st.enough w then some w else st.diversity multi f (next || !multi) w

/-- alg_oll.go:184-195 -/
def Oll.allConsidered (st : Oll) (minW : Nat) : Bool := (st.soft.all fun x => decide (minW ≤ x.w)) && st.ca.all fun p => decide (minW ≤ st.cw p)

/-- alg_oll.go:163-356, the loop of `weighted` -/
def ollW (P : Prob) (O : Orc) : Nat → Nat → Oll → List Nat → Nat → Nat → Nat → Nat → (Nat → Bool) → Option Res
  | 0, _, _, _, _, _, _, _, _ => none
  | f + 1, k, st, as, minW, nb, lb, ub, u => match O k st.s as with
    | .cancel => some .cancel
    | .sat v =>
      let better := decide (st.cost v < ub ∨ nb = 0)
      let ub := if better then st.cost v else ub
      let u := if better then v else u
      if nb = 0 then
        (st.diversity false (minW + 2) false minW).bind fun w => ollW P O f (k + 1) st (as ++ (st.soft.filter fun x => decide (w ≤ x.w)).map fun x => neg x.l) minW 1 lb ub u
      else if st.allConsidered minW then some (.opt ub u)
      else (st.diversity true (minW + 2) false minW).bind fun w => ollW P O f (k + 1) st (st.asm w) w (nb + 1) lb ub u
    | .unsat core => if nb = 0 then some .unsat
        else
          let mc := st.minCore core
          if lb + mc = ub then some (.opt ub u)
          else (st.relaxW mc core).bind fun st => ollW P O f (k + 1) st (st.asm minW) minW nb (lb + mc) ub u

/-- alg_oll.go:24 `search` -/
def oll (P : Prob) (O : Orc) (f : Nat) : Option Res :=
  let ub := (P.soft.map (·.2)).sum
  if curWeight (P.soft.map (·.2)) = 1 then ollU P O f 0 P.ollInit [] 0 0 ub fun _ => false
  else ollW P O f 0 P.ollInit [] (curWeight (P.soft.map (·.2))) 0 0 ub fun _ => false

/-! ## the invariant -/

/-- what a soft clause still contributes -/
def vs (u : Nat → Bool) (x : Sft) : Nat := if x.act || clauseVal u x.cl then 0 else x.w

def Oll.softSum (st : Oll) (u : Nat → Bool) : Nat := (st.soft.map (vs u)).sum

/-- what a cardinality constraint still contributes -/
def Oll.term (st : Oll) (u : Nat → Bool) (p : Nat) : Nat := match st.bm p with
  | none => 0
  | some (id, b, w) => match st.cards[id]? with
    | none => 0
    | some t => w * (cnt u t.ilits - b)

def Oll.cardSum (st : Oll) (u : Nat → Bool) : Nat := (st.ca.map (st.term u)).sum

/-- an assumed cardinality constraint -/
structure CardAt (st : Oll) (p id b w : Nat) (t : Tot) : Prop where
  bm : st.bm p = some (id, b, w)
  card : st.cards[id]? = some t
  cov : ∀ z ∈ t.zs, b ≤ z.rhs
  out : t.out[b]? = some p
  pos : 0 < w
  one : 1 ≤ b

/-- the values of the auxiliary variables are exact -/
structure Oll.Canon (st : Oll) (v : Nat → Bool) : Prop where
  soft : ∀ x ∈ st.soft, litVal v x.l = !clauseVal v x.cl
  card : ∀ t ∈ st.cards, MaxAlg.Canon v t t.ilits

/-- `X` is the weight of the literals of the conflict that are already processed, `Y` what is known of them -/
structure OInv (P : Prob) (st : Oll) (lb : Nat) (X : (Nat → Bool) → Nat) (Y : (Nat → Bool) → Prop) : Prop where
  wf : st.s.WF
  ext : Ext (P.relaxed 0) st.s
  soft : ∀ x ∈ st.soft, x.cl ++ [x.l] ∈ st.s.cs ∧ 0 < x.w
  lits : (st.soft.map (·.l)).Nodup
  cost : ∀ u, st.cost u = costC u P.soft
  cards : ∀ t ∈ st.cards, Counts t st.s t.ilits ∧ t.inc = true
  outs : ∀ (i j : Nat) (a b : Tot), st.cards[i]? = some a → st.cards[j]? = some b → i ≠ j → ∀ l ∈ a.out, l ∉ b.out
  sdis : ∀ x ∈ st.soft, ∀ t ∈ st.cards, x.l ∉ t.out
  dom : ∀ p e, st.bm p = some e → ∃ t ∈ st.cards, p ∈ t.out
  nodup : st.ca.Nodup
  card : ∀ p ∈ st.ca, ∃ id b w t, CardAt st p id b w t
  inj : ∀ p ∈ st.ca, ∀ q ∈ st.ca, ∀ id b w b' w', st.bm p = some (id, b, w) → st.bm q = some (id, b', w') → p = q
  xc : ∀ u v : Nat → Bool, (∀ x < st.s.n, u x = v x) → X u = X v
  yc : ∀ u v : Nat → Bool, (∀ x < st.s.n, u x = v x) → Y u → Y v
  sound : ∀ u, st.s.Holds u → costC u P.soft ≤ lb + st.softSum u + st.cardSum u + X u
  complete : ∀ v, P.Holds v → ∃ v' : Nat → Bool, (∀ x < P.n, v' x = v x) ∧ st.s.Holds v' ∧ st.Canon v' ∧ costC v' P.soft = lb + st.softSum v' + st.cardSum v' + X v' ∧ Y v'

/-! ## lists -/

theorem split_at {α : Type} {l : List α} {i : Nat} {x : α} (h : l[i]? = some x) : ∃ a b, l = a ++ x :: b ∧ ∀ y, l.set i y = a ++ y :: b := by
  obtain ⟨hi, rfl⟩ := List.getElem?_eq_some_iff.1 h
  refine ⟨l.take i, l.drop (i + 1), ?_, fun y => ?_⟩
  · rw [← List.drop_eq_getElem_cons hi, List.take_append_drop]
  · exact List.set_eq_take_append_cons_drop.trans (if_pos hi)

theorem mem_insA {p q : Nat} : ∀ {l : List Nat}, q ∈ insA p l ↔ q = p ∨ q ∈ l
  | [] => by simp [insA]
  | a :: l => by
    unfold insA
    split
    · subst_vars; simp
    · split
      · simp
      · rw [List.mem_cons, mem_insA, List.mem_cons]
        constructor
        · rintro (h | h | h)
          · exact .inr (.inl h)
          · exact .inl h
          · exact .inr (.inr h)
        · rintro (h | h | h)
          · exact .inr (.inl h)
          · exact .inl h
          · exact .inr (.inr h)

theorem insA_perm {p : Nat} : ∀ {l : List Nat}, p ∉ l → (insA p l).Perm (p :: l)
  | [], _ => by simp [insA]
  | a :: l, h => by
    unfold insA
    rw [if_neg fun e : p = a => h (e ▸ List.mem_cons_self)]
    split
    · exact List.Perm.refl _
    · exact ((insA_perm fun e => h (List.mem_cons_of_mem _ e)).cons a).trans (List.Perm.swap _ _ _)

theorem sum_map_congr {l : List Nat} {f g : Nat → Nat} (h : ∀ p ∈ l, f p = g p) : (l.map f).sum = (l.map g).sum := by
  rw [List.map_congr_left h]

theorem upd_self {α : Type} (f : Nat → Option α) (p : Nat) (a : α) : upd f p a p = some a := by unfold upd; rw [if_pos rfl]

theorem upd_ne {α : Type} {f : Nat → Option α} {p q : Nat} {a : α} (h : q ≠ p) : upd f p a q = f q := by unfold upd; rw [if_neg h]

/-! ## general steps -/

theorem OInv.imp {P : Prob} {st : Oll} {lb : Nat} {X X' : (Nat → Bool) → Nat} {Y Y' : (Nat → Bool) → Prop} (h : OInv P st lb X Y)
    (xc : ∀ u v : Nat → Bool, (∀ x < st.s.n, u x = v x) → X' u = X' v) (yc : ∀ u v : Nat → Bool, (∀ x < st.s.n, u x = v x) → Y' u → Y' v)
    (hs : ∀ u, st.s.Holds u → X u ≤ X' u) (hc : ∀ v, st.s.Holds v → st.Canon v → Y v → X v = X' v ∧ Y' v) : OInv P st lb X' Y' := by
  refine { h with xc := xc, yc := yc, sound := fun u hu => ?_, complete := fun v hv => ?_ }
  · have := h.sound u hu; have := hs u hu; omega
  · obtain ⟨v', g1, g2, g3, g4, g5⟩ := h.complete v hv
    obtain ⟨e1, e2⟩ := hc v' g2 g3 g5
    exact ⟨v', g1, g2, g3, by rw [g4, e1], e2⟩

/-- the literals of the conflict recorded so far do not matter -/
theorem OInv.relax {P : Prob} {st : Oll} {lb : Nat} {X : (Nat → Bool) → Nat} {Y : (Nat → Bool) → Prop} (h : OInv P st lb X Y) (a b : List Nat) : OInv P { st with rs := a, rc := b } lb X Y :=
  { wf := h.wf, ext := h.ext, soft := h.soft, lits := h.lits, cost := h.cost, cards := h.cards, outs := h.outs, sdis := h.sdis, dom := h.dom, nodup := h.nodup,
    card := fun p hp => by
      obtain ⟨id, b, w, t, c⟩ := h.card p hp
      exact ⟨id, b, w, t, ⟨c.bm, c.card, c.cov, c.out, c.pos, c.one⟩⟩
    inj := h.inj, xc := h.xc, yc := h.yc, sound := h.sound,
    complete := fun v hv => by
      obtain ⟨v', g1, g2, g3, g4, g5⟩ := h.complete v hv
      exact ⟨v', g1, g2, ⟨g3.soft, g3.card⟩, g4, g5⟩ }

theorem OInv.litBelow {P : Prob} {st : Oll} {lb : Nat} {X : (Nat → Bool) → Nat} {Y : (Nat → Bool) → Prop} (h : OInv P st lb X Y) {x : Sft} (hx : x ∈ st.soft) : x.l / 2 < st.s.n :=
  h.wf _ (h.soft x hx).1 _ (by simp)

theorem OInv.clBelow {P : Prob} {st : Oll} {lb : Nat} {X : (Nat → Bool) → Nat} {Y : (Nat → Bool) → Prop} (h : OInv P st lb X Y) {x : Sft} (hx : x ∈ st.soft) : ∀ l ∈ x.cl, l / 2 < st.s.n :=
  fun l hl => h.wf _ (h.soft x hx).1 _ (List.mem_append_left _ hl)

/-- a violated soft clause has a true literal -/
theorem OInv.viol {P : Prob} {st : Oll} {lb : Nat} {X : (Nat → Bool) → Nat} {Y : (Nat → Bool) → Prop} (h : OInv P st lb X Y) {x : Sft} (hx : x ∈ st.soft) {u : Nat → Bool} (hu : st.s.Holds u)
    (hv : clauseVal u x.cl = false) : litVal u x.l = true := by
  obtain ⟨l, hl, ht⟩ := clauseVal_iff.1 (hu _ (h.soft x hx).1)
  rcases List.mem_append.1 hl with hl | hl
  · rw [clauseVal_iff.2 ⟨l, hl, ht⟩] at hv; cases hv
  · rw [List.mem_singleton.1 hl] at ht; exact ht

theorem costC_append (u : Nat → Bool) : ∀ a b : List (List Nat × Nat), costC u (a ++ b) = costC u a + costC u b
  | [], b => (Nat.zero_add _).symm
  | (c, k) :: a, b => by rw [List.cons_append, costC, costC, costC_append u a b, Nat.add_assoc]

/-- a whole soft clause is taken -/
theorem OInv.softFull {P : Prob} {st : Oll} {lb : Nat} {X : (Nat → Bool) → Nat} {Y : (Nat → Bool) → Prop} (h : OInv P st lb X Y) {i : Nat} {x : Sft} (hx : st.soft[i]? = some x)
    (ha : x.act = false) : OInv P { st with soft := st.soft.set i { x with act := true } } lb (fun u => X u + if litVal u x.l then x.w else 0) Y := by
  obtain ⟨a, b, e, hset⟩ := split_at hx
  have hm : x ∈ st.soft := List.mem_of_getElem? hx
  have hmem : ∀ y ∈ st.soft.set i { x with act := true }, ∃ z ∈ st.soft, y.cl = z.cl ∧ y.l = z.l ∧ y.w = z.w := by
    intro y hy
    rw [hset] at hy
    rcases List.mem_append.1 hy with hy | hy
    · exact ⟨y, by rw [e]; exact List.mem_append_left _ hy, rfl, rfl, rfl⟩
    · rcases List.mem_cons.1 hy with rfl | hy
      · exact ⟨x, hm, rfl, rfl, rfl⟩
      · exact ⟨y, by rw [e]; exact List.mem_append_right _ (List.mem_cons_of_mem _ hy), rfl, rfl, rfl⟩
  have hsum : ∀ u, st.softSum u = Oll.softSum { st with soft := st.soft.set i { x with act := true } } u + if clauseVal u x.cl then 0 else x.w := by
    intro u
    unfold Oll.softSum
    dsimp only
    rw [hset, e]
    simp only [List.map_append, List.map_cons, List.sum_append, List.sum_cons]
    unfold vs
    simp only [ha, Bool.false_or, Bool.true_or, if_true]
    omega
  refine { h with soft := fun y hy => ?_, lits := ?_, cost := fun u => ?_, sdis := fun y hy => ?_, card := fun p hp => ?_, xc := fun u v hv => ?_, sound := fun u hu => ?_, complete := fun v hv => ?_ }
  · obtain ⟨z, hz, e1, e2, e3⟩ := hmem y hy
    rw [e1, e2, e3]; exact h.soft z hz
  · have := h.lits
    rw [e] at this
    dsimp only
    rw [hset]
    simpa using this
  · rw [← h.cost u]
    unfold Oll.cost
    dsimp only
    rw [hset, e]
    simp
  · obtain ⟨z, hz, e1, e2, e3⟩ := hmem y hy
    rw [e2]; exact h.sdis z hz
  · obtain ⟨id, b, w, t, c⟩ := h.card p hp
    exact ⟨id, b, w, t, ⟨c.bm, c.card, c.cov, c.out, c.pos, c.one⟩⟩
  · show X u + (if litVal u x.l then x.w else 0) = X v + if litVal v x.l then x.w else 0
    rw [h.xc u v hv, litVal_congr (hv _ (h.litBelow hm))]
  · have h1 := h.sound u hu
    rw [hsum u] at h1
    have : (if clauseVal u x.cl then 0 else x.w) ≤ if litVal u x.l then x.w else 0 := by
      by_cases hc : clauseVal u x.cl = true
      · rw [if_pos hc]; exact Nat.zero_le _
      · rw [if_neg hc, if_pos (h.viol hm hu (by simpa using hc))]; exact Nat.le_refl _
    have e2 : Oll.cardSum { st with soft := st.soft.set i { x with act := true } } u = st.cardSum u := rfl
    omega
  · obtain ⟨v', g1, g2, g3, g4, g5⟩ := h.complete v hv
    refine ⟨v', g1, g2, ⟨fun y hy => ?_, g3.card⟩, ?_, g5⟩
    · obtain ⟨z, hz, e1, e2, e3⟩ := hmem y hy
      rw [e1, e2]; exact g3.soft z hz
    · rw [hsum v'] at g4
      have e2 : Oll.cardSum { st with soft := st.soft.set i { x with act := true } } v' = st.cardSum v' := rfl
      have e3 : (if litVal v' x.l then x.w else 0) = if clauseVal v' x.cl then 0 else x.w := by
        rw [g3.soft x hm]
        cases clauseVal v' x.cl <;> rfl
      rw [e3]
      omega

/-- only the variables of the solver matter -/
theorem OInv.congr {P : Prob} {st : Oll} {lb : Nat} {X : (Nat → Bool) → Nat} {Y : (Nat → Bool) → Prop} (h : OInv P st lb X Y) {u v : Nat → Bool} (e : ∀ x < st.s.n, u x = v x) :
    st.softSum u = st.softSum v ∧ st.cardSum u = st.cardSum v ∧ costC u P.soft = costC v P.soft ∧ (st.Canon u → st.Canon v) := by
  refine ⟨?_, ?_, ?_, fun hc => ⟨fun x hx => ?_, fun t ht => ?_⟩⟩
  · unfold Oll.softSum
    congr 1
    refine List.map_congr_left fun x hx => ?_
    unfold vs
    rw [clauseVal_congr fun l hl => e _ (h.clBelow hx l hl)]
  · unfold Oll.cardSum
    refine sum_map_congr fun p hp => ?_
    obtain ⟨id, b, w, t, c⟩ := h.card p hp
    unfold Oll.term
    rw [c.bm]; dsimp only
    rw [c.card]; dsimp only
    rw [cnt_congr fun l hl => e _ ((h.cards t (List.mem_of_getElem? c.card)).1.bins l hl)]
  · rw [← h.cost, ← h.cost]
    unfold Oll.cost
    refine costC_congr fun c hc l hl => ?_
    obtain ⟨x, hx, rfl⟩ := List.mem_map.1 hc
    exact e _ (h.clBelow hx l hl)
  · rw [← litVal_congr (e _ (h.litBelow hx)), hc.soft x hx, clauseVal_congr fun l hl => e _ (h.clBelow hx l hl)]
  · exact (hc.card t ht).congr (h.cards t ht).1 e

/-- the conditions on the solver when clauses are added -/
theorem OInv.cardsExt {P : Prob} {st : Oll} {lb : Nat} {X : (Nat → Bool) → Nat} {Y : (Nat → Bool) → Prop} (h : OInv P st lb X Y) {s' : Sol} (he : Ext st.s s') (hw : s'.WF) :
    ∀ t ∈ st.cards, Counts t s' t.ilits ∧ t.inc = true := fun t ht => ⟨(h.cards t ht).1.ext he hw, (h.cards t ht).2⟩

/-- a soft clause is split -/
theorem OInv.softSplit {P : Prob} {st : Oll} {lb mc : Nat} {X : (Nat → Bool) → Nat} {Y : (Nat → Bool) → Prop} (h : OInv P st lb X Y) {i : Nat} {x : Sft} (hx : st.soft[i]? = some x)
    (ha : x.act = false) (h0 : 0 < mc) (hmc : mc < x.w) :
    OInv P { st with soft := st.soft.set i { x with w := x.w - mc } ++ [⟨x.cl, mc, 2 * st.s.n, true⟩], s := ⟨st.s.n + 1, (x.cl ++ [2 * st.s.n]) :: st.s.cs⟩ } lb
      (fun u => X u + if litVal u (2 * st.s.n) then mc else 0) (fun v => Y v ∧ litVal v (2 * st.s.n) = litVal v x.l) := by
  obtain ⟨a, b, e, hset⟩ := split_at hx
  have hm : x ∈ st.soft := List.mem_of_getElem? hx
  obtain ⟨st', hst'⟩ : ∃ st' : Oll, { st with soft := st.soft.set i { x with w := x.w - mc } ++ [⟨x.cl, mc, 2 * st.s.n, true⟩], s := ⟨st.s.n + 1, (x.cl ++ [2 * st.s.n]) :: st.s.cs⟩ } = st' := ⟨_, rfl⟩
  have es : st'.soft = a ++ { x with w := x.w - mc } :: b ++ [⟨x.cl, mc, 2 * st.s.n, true⟩] := by rw [← hst']; dsimp only; rw [hset]
  have en : st'.s = ⟨st.s.n + 1, (x.cl ++ [2 * st.s.n]) :: st.s.cs⟩ := by rw [← hst']
  have ec : st'.cards = st.cards := by rw [← hst']
  have eb : st'.bm = st.bm := by rw [← hst']
  have ea : st'.ca = st.ca := by rw [← hst']
  rw [hst']
  have he : Ext st.s st'.s := ⟨by rw [en]; exact Nat.le_succ _, fun c hc => by rw [en]; exact List.mem_cons_of_mem _ hc⟩
  have hw : st'.s.WF := by
    rw [en]
    intro c hc l hl
    show l / 2 < st.s.n + 1
    rcases List.mem_cons.1 hc with rfl | hc
    · rcases List.mem_append.1 hl with hl | hl
      · have := h.clBelow hm l hl; omega
      · rw [List.mem_singleton.1 hl]; omega
    · have := h.wf c hc l hl; omega
  have hmem : ∀ y ∈ st'.soft, (∃ z ∈ st.soft, y.cl = z.cl ∧ y.l = z.l ∧ 0 < y.w) ∨ y = ⟨x.cl, mc, 2 * st.s.n, true⟩ := by
    intro y hy
    rw [es] at hy
    rcases List.mem_append.1 hy with hy | hy
    · refine .inl ?_
      rcases List.mem_append.1 hy with hy | hy
      · have : y ∈ st.soft := by rw [e]; exact List.mem_append_left _ hy
        exact ⟨y, this, rfl, rfl, (h.soft y this).2⟩
      · rcases List.mem_cons.1 hy with rfl | hy
        · exact ⟨x, hm, rfl, rfl, by dsimp only; omega⟩
        · have : y ∈ st.soft := by rw [e]; exact List.mem_append_right _ (List.mem_cons_of_mem _ hy)
          exact ⟨y, this, rfl, rfl, (h.soft y this).2⟩
    · exact .inr (List.mem_singleton.1 hy)
  have hsum : ∀ u, st.softSum u = st'.softSum u + if clauseVal u x.cl then 0 else mc := by
    intro u
    unfold Oll.softSum
    rw [es, e]
    simp only [List.map_append, List.map_cons, List.map_nil, List.sum_append, List.sum_cons, List.sum_nil]
    unfold vs
    simp only [ha, Bool.false_or, Bool.true_or, if_true]
    by_cases hc : clauseVal u x.cl = true
    · rw [if_pos hc, if_pos hc, if_pos hc]; omega
    · rw [if_neg hc, if_neg hc, if_neg hc]; omega
  have hcs : ∀ u, st'.cardSum u = st.cardSum u := fun u => by
    unfold Oll.cardSum Oll.term
    rw [ea, eb, ec]
  refine { wf := hw, ext := h.ext.trans he, soft := fun y hy => ?_, lits := ?_, cost := fun u => ?_, cards := ?_, outs := ?_, sdis := fun y hy t ht => ?_, dom := ?_, nodup := ?_,
           card := fun p hp => ?_, inj := ?_, xc := fun u v hv => ?_, yc := fun u v hv hy => ?_, sound := fun u hu => ?_, complete := fun v hv => ?_ }
  · rcases hmem y hy with ⟨z, hz, e1, e2, e3⟩ | rfl
    · rw [e1, e2]; exact ⟨he.cs _ (h.soft z hz).1, e3⟩
    · rw [en]; exact ⟨List.mem_cons_self, h0⟩
  · have := h.lits
    rw [e] at this
    rw [es, List.map_append, List.nodup_append]
    refine ⟨by simpa using this, by simp, fun y hy z hz he => ?_⟩
    have : z = 2 * st.s.n := by simpa using hz
    subst this
    obtain ⟨q, hq, rfl⟩ := List.mem_map.1 hy
    have : q.l / 2 < st.s.n := by
      rcases List.mem_append.1 hq with hq | hq
      · exact h.litBelow (by rw [e]; exact List.mem_append_left _ hq)
      · rcases List.mem_cons.1 hq with rfl | hq
        · exact h.litBelow (x := x) hm
        · exact h.litBelow (by rw [e]; exact List.mem_append_right _ (List.mem_cons_of_mem _ hq))
    omega
  · rw [← h.cost u]
    unfold Oll.cost
    rw [es, e]
    simp only [List.map_append, List.map_cons, List.map_nil, costC_append, costC]
    by_cases hc : clauseVal u x.cl = true
    · rw [if_pos hc, if_pos hc, if_pos hc]; omega
    · rw [if_neg hc, if_neg hc, if_neg hc]; omega
  · rw [ec]; exact h.cardsExt he hw
  · rw [ec]; exact h.outs
  · rw [ec] at ht
    rcases hmem y hy with ⟨z, hz, e1, e2, e3⟩ | rfl
    · rw [e2]; exact h.sdis z hz t ht
    · intro hl
      have := (h.cards t ht).1.out _ hl
      dsimp only at this
      omega
  · rw [eb, ec]; exact h.dom
  · rw [ea]; exact h.nodup
  · rw [ea] at hp
    obtain ⟨id, b, w, t, c⟩ := h.card p hp
    exact ⟨id, b, w, t, ⟨by rw [eb]; exact c.bm, by rw [ec]; exact c.card, c.cov, c.out, c.pos, c.one⟩⟩
  · rw [ea, eb]; exact h.inj
  · rw [en] at hv
    show X u + (if litVal u (2 * st.s.n) then mc else 0) = X v + if litVal v (2 * st.s.n) then mc else 0
    rw [h.xc u v fun x hx => hv x (Nat.lt_succ_of_lt hx), litVal_congr (hv _ (by show 2 * st.s.n / 2 < st.s.n + 1; omega))]
  · rw [en] at hv
    refine ⟨h.yc u v (fun x hx => hv x (Nat.lt_succ_of_lt hx)) hy.1, ?_⟩
    rw [← litVal_congr (hv _ (by show 2 * st.s.n / 2 < st.s.n + 1; omega)), ← litVal_congr (hv _ (Nat.lt_succ_of_lt (h.litBelow hm)))]
    exact hy.2
  · have h1 := h.sound u (he.holds hu)
    rw [hsum u] at h1
    rw [hcs u]
    have : (if clauseVal u x.cl then 0 else mc) ≤ if litVal u (2 * st.s.n) then mc else 0 := by
      by_cases hc : clauseVal u x.cl = true
      · rw [if_pos hc]; exact Nat.zero_le _
      · have : litVal u (2 * st.s.n) = true := by
          obtain ⟨l, hl, ht⟩ := clauseVal_iff.1 (hu (x.cl ++ [2 * st.s.n]) (by rw [en]; exact List.mem_cons_self))
          rcases List.mem_append.1 hl with hl | hl
          · exact absurd (clauseVal_iff.2 ⟨l, hl, ht⟩) hc
          · rw [List.mem_singleton.1 hl] at ht; exact ht
        rw [if_neg hc, if_pos this]; exact Nat.le_refl _
    omega
  · obtain ⟨v', g1, g2, g3, g4, g5⟩ := h.complete v hv
    have hag : ∀ y < st.s.n, v' y = (fun y => if y = st.s.n then !clauseVal v' x.cl else v' y) y := fun y hy => by dsimp only; rw [if_neg (by omega)]
    obtain ⟨w, hww⟩ : ∃ w : Nat → Bool, (fun y => if y = st.s.n then !clauseVal v' x.cl else v' y) = w := ⟨_, rfl⟩
    have hnew : litVal w (2 * st.s.n) = !clauseVal v' x.cl := by rw [litVal_two, ← hww]; simp
    rw [hww] at hag
    obtain ⟨c1, c2, c3, c4⟩ := h.congr hag
    have hcl : ∀ y ∈ st.soft, clauseVal w y.cl = clauseVal v' y.cl := fun y hy => clauseVal_congr fun l hl => (hag _ (h.clBelow hy l hl)).symm
    have hPn : P.n ≤ st.s.n := Nat.le_trans (Nat.le_add_right _ _) h.ext.n
    have hv2 : st.s.Holds w := (Sol.holds_congr h.wf hag).1 g2
    have k3 := c4 g3
    refine ⟨w, fun y hy => by rw [← hag y (by omega)]; exact g1 y hy, ?_, ⟨fun y hy => ?_, fun t ht => ?_⟩, ?_, h.yc v' w hag g5, ?_⟩
    · rw [en]
      intro c hc
      rcases List.mem_cons.1 hc with rfl | hc
      · rw [clauseVal_iff]
        by_cases hv : clauseVal v' x.cl = true
        · rw [← hcl x hm] at hv
          obtain ⟨l, hl, ht⟩ := clauseVal_iff.1 hv
          exact ⟨l, List.mem_append_left _ hl, ht⟩
        · exact ⟨_, List.mem_append_right _ (List.mem_singleton.2 rfl), by rw [hnew]; simpa using hv⟩
      · exact hv2 c hc
    · rcases hmem y hy with ⟨z, hz, e1, e2, e3⟩ | rfl
      · rw [e1, e2]; exact k3.soft z hz
      · dsimp only; rw [hnew, hcl x hm]
    · rw [ec] at ht; exact k3.card t ht
    · rw [hcs w, ← c2, ← c3, g4, c1, hsum w, hnew, ← h.xc v' w hag, hcl x hm]
      cases clauseVal v' x.cl <;> simp <;> omega
    · rw [hnew, k3.soft x hm, hcl x hm]

/-- no assumed constraint uses the totalizer -/
def Oll.Free (st : Oll) (id : Nat) : Prop := ∀ q ∈ st.ca, ∀ id' b w, st.bm q = some (id', b, w) → id' ≠ id

theorem CardAt.term {st : Oll} {p id b w : Nat} {t : Tot} (c : CardAt st p id b w t) (u : Nat → Bool) : st.term u p = w * (cnt u t.ilits - b) := by
  unfold Oll.term
  rw [c.bm]; dsimp only
  rw [c.card]

theorem CardAt.mem {st : Oll} {p id b w : Nat} {t : Tot} (c : CardAt st p id b w t) : p ∈ t.out := List.mem_of_getElem? c.out

/-- an assumed constraint is taken -/
theorem OInv.take {P : Prob} {st : Oll} {lb : Nat} {X : (Nat → Bool) → Nat} {Y : (Nat → Bool) → Prop} (h : OInv P st lb X Y) {p id b w : Nat} {t : Tot} (hp : p ∈ st.ca) (c : CardAt st p id b w t) :
    OInv P { st with ca := st.ca.erase p } lb (fun u => X u + w * (cnt u t.ilits - b)) Y ∧ Oll.Free { st with ca := st.ca.erase p } id := by
  have hsum : ∀ u, st.cardSum u = w * (cnt u t.ilits - b) + Oll.cardSum { st with ca := st.ca.erase p } u := fun u => by
    unfold Oll.cardSum
    rw [((List.perm_cons_erase hp).map (st.term u)).sum_nat, List.map_cons, List.sum_cons, c.term]
    rfl
  have hb := (h.cards t (List.mem_of_getElem? c.card)).1.bins
  refine ⟨{ h with nodup := h.nodup.erase p, card := fun q hq => ?_, inj := fun q hq r hr => h.inj q (List.mem_of_mem_erase hq) r (List.mem_of_mem_erase hr), xc := fun u v hv => ?_,
                   sound := fun u hu => ?_, complete := fun v hv => ?_ }, fun q hq id' b' w' e ei => ?_⟩
  · obtain ⟨id, b, w, t, c⟩ := h.card q (List.mem_of_mem_erase hq)
    exact ⟨id, b, w, t, ⟨c.bm, c.card, c.cov, c.out, c.pos, c.one⟩⟩
  · show X u + w * (cnt u t.ilits - b) = X v + w * (cnt v t.ilits - b)
    rw [h.xc u v hv, cnt_congr fun l hl => hv _ (hb l hl)]
  · have := h.sound u hu
    rw [hsum u] at this
    show costC u P.soft ≤ lb + st.softSum u + Oll.cardSum { st with ca := st.ca.erase p } u + (X u + w * (cnt u t.ilits - b))
    omega
  · obtain ⟨v', g1, g2, g3, g4, g5⟩ := h.complete v hv
    rw [hsum v'] at g4
    refine ⟨v', g1, g2, ⟨g3.soft, g3.card⟩, ?_, g5⟩
    show costC v' P.soft = lb + st.softSum v' + Oll.cardSum { st with ca := st.ca.erase p } v' + (X v' + w * (cnt v' t.ilits - b))
    omega
  · subst ei
    have := h.inj q (List.mem_of_mem_erase hq) p hp _ _ _ _ _ e c.bm
    subst this
    exact (List.Nodup.mem_erase_iff h.nodup).1 hq |>.1 rfl

/-- a constraint on a totalizer that is not yet used is assumed -/
theorem OInv.put {P : Prob} {st : Oll} {lb mc id b o : Nat} {t : Tot} {X : (Nat → Bool) → Nat} {Y : (Nat → Bool) → Prop} (h : OInv P st lb (fun u => X u + mc * (cnt u t.ilits - b)) Y)
    (hX : ∀ u v : Nat → Bool, (∀ x < st.s.n, u x = v x) → X u = X v) (ht : st.cards[id]? = some t) (hf : st.Free id) (hc : ∀ z ∈ t.zs, b ≤ z.rhs) (ho : t.out[b]? = some o) (h0 : 0 < mc) (h1 : 1 ≤ b) :
    OInv P { st with bm := upd st.bm o (id, b, mc), ca := insA o st.ca } lb X Y := by
  have hto : o ∈ t.out := List.mem_of_getElem? ho
  have hno : ∀ q ∈ st.ca, q ≠ o := fun q hq e => by
    subst e
    obtain ⟨id', b', w', t', c⟩ := h.card q hq
    exact h.outs _ _ _ _ c.card ht (hf q hq _ _ _ c.bm) q c.mem hto
  have hoc : o ∉ st.ca := fun hm => hno o hm rfl
  have hperm := insA_perm hoc
  have hold : ∀ u, ∀ q ∈ st.ca, Oll.term { st with bm := upd st.bm o (id, b, mc), ca := insA o st.ca } u q = st.term u q := fun u q hq => by
    unfold Oll.term
    dsimp only
    rw [upd_ne (hno q hq)]
  have hnew : CardAt { st with bm := upd st.bm o (id, b, mc), ca := insA o st.ca } o id b mc t := ⟨upd_self _ _ _, ht, hc, ho, h0, h1⟩
  have hsum : ∀ u, Oll.cardSum { st with bm := upd st.bm o (id, b, mc), ca := insA o st.ca } u = mc * (cnt u t.ilits - b) + st.cardSum u := fun u => by
    unfold Oll.cardSum
    rw [(hperm.map _).sum_nat, List.map_cons, List.sum_cons, hnew.term, sum_map_congr (hold u)]
  refine { h with dom := fun q e hq => ?_, nodup := (hperm.nodup_iff).2 (List.nodup_cons.2 ⟨hoc, h.nodup⟩), card := fun q hq => ?_, inj := fun q hq r hr id1 b1 w1 b2 w2 e1 e2 => ?_,
                  xc := hX, sound := fun u hu => ?_, complete := fun v hv => ?_ }
  · by_cases e : q = o
    · subst e; exact ⟨t, List.mem_of_getElem? ht, hto⟩
    · dsimp only at hq
      rw [upd_ne e] at hq
      exact h.dom q _ hq
  · rcases mem_insA.1 hq with rfl | hq
    · exact ⟨id, b, mc, t, hnew⟩
    · obtain ⟨id', b', w', t', c⟩ := h.card q hq
      exact ⟨id', b', w', t', ⟨(upd_ne (hno q hq)).trans c.bm, c.card, c.cov, c.out, c.pos, c.one⟩⟩
  · dsimp only at e1 e2
    rcases mem_insA.1 hq with rfl | hq
    · rcases mem_insA.1 hr with rfl | hr
      · rfl
      · rw [upd_self] at e1
        rw [upd_ne (hno r hr)] at e2
        injection e1 with e1
        injection e1 with e1
        exact absurd e1.symm (hf r hr _ _ _ e2)
    · rcases mem_insA.1 hr with rfl | hr
      · rw [upd_self] at e2
        rw [upd_ne (hno q ‹q ∈ st.ca›)] at e1
        injection e2 with e2
        injection e2 with e2
        exact absurd e2.symm (hf q ‹q ∈ st.ca› _ _ _ e1)
      · rw [upd_ne (hno q hq)] at e1
        rw [upd_ne (hno r hr)] at e2
        exact h.inj q hq r hr _ _ _ _ _ e1 e2
  · have := h.sound u hu
    rw [hsum u]
    show costC u P.soft ≤ lb + st.softSum u + _ + X u
    omega
  · obtain ⟨v', g1, g2, g3, g4, g5⟩ := h.complete v hv
    refine ⟨v', g1, g2, ⟨g3.soft, g3.card⟩, ?_, g5⟩
    rw [hsum v']
    show costC v' P.soft = lb + st.softSum v' + _ + X v'
    omega

/-- an entry of a literal that is not assumed -/
theorem OInv.junk {P : Prob} {st : Oll} {lb o : Nat} {e : Nat × Nat × Nat} {X : (Nat → Bool) → Nat} {Y : (Nat → Bool) → Prop} (h : OInv P st lb X Y) (ho : o ∉ st.ca)
    (ht : ∃ t ∈ st.cards, o ∈ t.out) : OInv P { st with bm := upd st.bm o e } lb X Y := by
  have hno : ∀ q ∈ st.ca, q ≠ o := fun q hq e => ho (e ▸ hq)
  have hsum : ∀ u, Oll.cardSum { st with bm := upd st.bm o e } u = st.cardSum u := fun u => by
    unfold Oll.cardSum
    refine sum_map_congr fun q hq => ?_
    unfold Oll.term
    dsimp only
    rw [upd_ne (hno q hq)]
  refine { h with dom := fun q e hq => ?_, card := fun q hq => ?_, inj := fun q hq r hr id1 b1 w1 b2 w2 e1 e2 => ?_, sound := fun u hu => ?_, complete := fun v hv => ?_ }
  · by_cases e : q = o
    · subst e; exact ht
    · dsimp only at hq
      rw [upd_ne e] at hq
      exact h.dom q _ hq
  · obtain ⟨id', b', w', t', c⟩ := h.card q hq
    exact ⟨id', b', w', t', ⟨(upd_ne (hno q hq)).trans c.bm, c.card, c.cov, c.out, c.pos, c.one⟩⟩
  · dsimp only at e1 e2
    rw [upd_ne (hno q hq)] at e1
    rw [upd_ne (hno r hr)] at e2
    exact h.inj q hq r hr _ _ _ _ _ e1 e2
  · rw [hsum u]; exact h.sound u hu
  · obtain ⟨v', g1, g2, g3, g4, g5⟩ := h.complete v hv
    refine ⟨v', g1, g2, ⟨g3.soft, g3.card⟩, ?_, g5⟩
    rw [hsum v']; exact g4

/-- a part of the weight of an assumed constraint is taken -/
theorem OInv.reweight {P : Prob} {st : Oll} {lb mc : Nat} {X : (Nat → Bool) → Nat} {Y : (Nat → Bool) → Prop} (h : OInv P st lb X Y) {p id b w : Nat} {t : Tot} (hp : p ∈ st.ca)
    (c : CardAt st p id b w t) (hw : mc < w) : OInv P { st with bm := upd st.bm p (id, b, w - mc) } lb (fun u => X u + mc * (cnt u t.ilits - b)) Y := by
  have hnew : CardAt { st with bm := upd st.bm p (id, b, w - mc) } p id b (w - mc) t := ⟨upd_self _ _ _, c.card, c.cov, c.out, by omega, c.one⟩
  have hbm : ∀ q id1 b1 w1, upd st.bm p (id, b, w - mc) q = some (id1, b1, w1) → ∃ w2, st.bm q = some (id1, b1, w2) := fun q id1 b1 w1 e => by
    by_cases hq : q = p
    · subst hq
      rw [upd_self] at e
      injection e with e
      injection e with e e2
      injection e2 with e2 e3
      subst e e2
      exact ⟨w, c.bm⟩
    · rw [upd_ne hq] at e
      exact ⟨w1, e⟩
  have hsum : ∀ u, st.cardSum u = mc * (cnt u t.ilits - b) + Oll.cardSum { st with bm := upd st.bm p (id, b, w - mc) } u := fun u => by
    unfold Oll.cardSum
    dsimp only
    rw [((List.perm_cons_erase hp).map (st.term u)).sum_nat, ((List.perm_cons_erase hp).map (Oll.term { st with bm := upd st.bm p (id, b, w - mc) } u)).sum_nat, List.map_cons, List.map_cons,
      List.sum_cons, List.sum_cons, c.term, hnew.term, ← Nat.add_assoc, ← Nat.add_mul, show mc + (w - mc) = w by omega]
    congr 1
    refine sum_map_congr fun q hq => ?_
    unfold Oll.term
    dsimp only
    rw [upd_ne ((List.Nodup.mem_erase_iff h.nodup).1 hq).1]
  have hb := (h.cards t (List.mem_of_getElem? c.card)).1.bins
  refine { h with dom := fun q e hq => ?_, card := fun q hq => ?_, inj := fun q hq r hr id1 b1 w1 b2 w2 e1 e2 => ?_, xc := fun u v hv => ?_, sound := fun u hu => ?_, complete := fun v hv => ?_ }
  · obtain ⟨w2, e2⟩ := hbm q e.1 e.2.1 e.2.2 hq
    exact h.dom q _ e2
  · by_cases e : q = p
    · subst e; exact ⟨_, _, _, _, hnew⟩
    · obtain ⟨id', b', w', t', c⟩ := h.card q hq
      exact ⟨id', b', w', t', ⟨(upd_ne e).trans c.bm, c.card, c.cov, c.out, c.pos, c.one⟩⟩
  · obtain ⟨w3, e3⟩ := hbm _ _ _ _ e1
    obtain ⟨w4, e4⟩ := hbm _ _ _ _ e2
    exact h.inj q hq r hr _ _ _ _ _ e3 e4
  · show X u + mc * (cnt u t.ilits - b) = X v + mc * (cnt v t.ilits - b)
    rw [h.xc u v hv, cnt_congr fun l hl => hv _ (hb l hl)]
  · have := h.sound u hu
    rw [hsum u] at this
    show costC u P.soft ≤ lb + st.softSum u + Oll.cardSum { st with bm := upd st.bm p (id, b, w - mc) } u + (X u + mc * (cnt u t.ilits - b))
    omega
  · obtain ⟨v', g1, g2, g3, g4, g5⟩ := h.complete v hv
    rw [hsum v'] at g4
    refine ⟨v', g1, g2, ⟨g3.soft, g3.card⟩, ?_, g5⟩
    show costC v' P.soft = lb + st.softSum v' + Oll.cardSum { st with bm := upd st.bm p (id, b, w - mc) } v' + (X v' + mc * (cnt v' t.ilits - b))
    omega

/-- the output at a covered bound follows from the count -/
theorem Counts.outTrue {t : Tot} {s : Sol} {ins : List Nat} (h : Counts t s ins) {b o : Nat} (hb : ∀ z ∈ t.zs, b ≤ z.rhs) (ho : t.out[b]? = some o) {u : Nat → Bool} (hu : s.Holds u)
    (hc : b + 1 ≤ cnt u ins) : litVal u o = true := by
  obtain ⟨ls, h1, h2⟩ := h.tree
  have := h1.sound (b := b) (fun z hz => (h.pre.cov z hz).le (hb z hz)) hu (b + 1) (by rw [cnt_perm h2]; exact hc) (by omega) (Nat.le_refl _)
  rw [Nat.add_sub_cancel, List.getD_eq_getElem?_getD, ho] at this
  exact this

theorem Canon.out {u : Nat → Bool} {t : Tot} {ins : List Nat} (h : MaxAlg.Canon u t ins) {b o : Nat} (ho : t.out[b]? = some o) : litVal u o = decide (b + 1 ≤ cnt u ins) := by
  obtain ⟨hl, _⟩ := List.getElem?_eq_some_iff.1 ho
  have := h.exact.2 b hl
  rw [List.getD_eq_getElem?_getD, ho] at this
  exact this

theorem sub_split (mc c b : Nat) : mc * (c - b) = (if b + 1 ≤ c then mc else 0) + mc * (c - (b + 1)) := by
  split
  · rw [show c - b = 1 + (c - (b + 1)) by omega, Nat.mul_add, Nat.mul_one]
  · rw [show c - b = 0 by omega, show c - (b + 1) = 0 by omega]; simp

/-- the bound of a totalizer that is not assumed is raised -/
theorem OInv.raise {P : Prob} {st : Oll} {lb mc id b o : Nat} {t : Tot} {X : (Nat → Bool) → Nat} {Y : (Nat → Bool) → Prop} (h : OInv P st lb (fun u => X u + mc * (cnt u t.ilits - b)) Y)
    (hX : ∀ u v : Nat → Bool, (∀ x < st.s.n, u x = v x) → X u = X v) (ht : st.cards[id]? = some t) (hf : st.Free id) (hc : ∀ z ∈ t.zs, b ≤ z.rhs) (ho : t.out[b]? = some o) :
    ∃ t' s' as, t.incUpdate st.s [] (b + 1) = some (t', s', as) ∧ t'.out = t.out ∧ t'.ilits = t.ilits ∧ (∀ z ∈ t'.zs, b + 1 ≤ z.rhs) ∧ s'.n = st.s.n ∧ Ext st.s s' ∧
      Oll.Free { st with cards := st.cards.set id t', s := s' } id ∧ (st.cards.set id t')[id]? = some t' ∧
      OInv P { st with cards := st.cards.set id t', s := s' } lb (fun u => (X u + if litVal u o then mc else 0) + mc * (cnt u t'.ilits - (b + 1))) Y := by
  have htm : t ∈ st.cards := List.mem_of_getElem? ht
  obtain ⟨hcnt, hinc⟩ := h.cards t htm
  obtain ⟨hbl, _⟩ := List.getElem?_eq_some_iff.1 ho
  have hol : o / 2 < st.s.n := hcnt.out o (List.mem_of_getElem? ho)
  obtain ⟨t', s', e1, e2, e3, e4, e5, e6, e7, e8, e9, e10, e11⟩ := update_inc_spec (rhs := b + 1) hinc hcnt (by rw [← hcnt.length]; omega)
  obtain ⟨hid, _⟩ := List.getElem?_eq_some_iff.1 ht
  have hset : (st.cards.set id t')[id]? = some t' := by simp [hid]
  have hget : ∀ (i : Nat) (a : Tot), (st.cards.set id t')[i]? = some a → ∃ a' : Tot, st.cards[i]? = some a' ∧ a'.out = a.out ∧ a'.ilits = a.ilits := fun i a ha => by
    by_cases ei : i = id
    · subst ei
      rw [hset] at ha
      injection ha with ha
      subst ha
      exact ⟨t, ht, e8.symm, e9.symm⟩
    · rw [List.getElem?_set_ne (Ne.symm ei)] at ha
      exact ⟨a, ha, rfl, rfl⟩
  have hmem : ∀ a ∈ st.cards.set id t', a = t' ∨ a ∈ st.cards := fun a ha => (List.mem_or_eq_of_mem_set ha).symm
  have hw : s'.WF := e4.pre.swf
  have hcard : ∀ q ∈ st.ca, ∀ id' b' w', st.bm q = some (id', b', w') → (st.cards.set id t')[id']? = st.cards[id']? := fun q hq id' b' w' e => by
    rw [List.getElem?_set_ne (Ne.symm (hf q hq _ _ _ e))]
  have hsum : ∀ u, Oll.cardSum { st with cards := st.cards.set id t', s := s' } u = st.cardSum u := fun u => by
    unfold Oll.cardSum
    refine sum_map_congr fun q hq => ?_
    obtain ⟨id', b', w', a, c⟩ := h.card q hq
    unfold Oll.term
    dsimp only
    rw [c.bm]; dsimp only
    rw [hcard q hq _ _ _ c.bm]
  refine ⟨t', s', _, (if_pos rfl).trans e1, e8, e9, fun z hz => Nat.le_of_eq (e10 z hz).symm, e3, e2, hf, hset, ?_⟩
  refine ⟨hw, h.ext.trans e2, fun x hx => ⟨e2.cs _ (h.soft x hx).1, (h.soft x hx).2⟩, h.lits, h.cost, fun a ha => ?_, fun i j a c hi hj hij l hl => ?_, fun x hx a ha => ?_, fun p e hp => ?_, h.nodup,
    fun q hq => ?_, h.inj, fun u v hv => ?_, fun u v hv => ?_, fun u hu => ?_, fun v hv => ?_⟩
  · rcases hmem a ha with rfl | ha
    · rw [e9]; exact ⟨e4, e5⟩
    · exact h.cardsExt e2 hw a ha
  · obtain ⟨a', ha, ea, _⟩ := hget i a hi
    obtain ⟨c', hc', ec, _⟩ := hget j c hj
    rw [← ec]; rw [← ea] at hl
    exact h.outs i j a' c' ha hc' hij l hl
  · rcases hmem a ha with rfl | ha
    · rw [e8]; exact h.sdis x hx t htm
    · exact h.sdis x hx a ha
  · obtain ⟨a, ha, hpa⟩ := h.dom p e hp
    by_cases hat : a = t
    · subst hat
      exact ⟨t', List.mem_of_getElem? hset, by rw [e8]; exact hpa⟩
    · obtain ⟨i, hi, rfl⟩ := List.getElem_of_mem ha
      refine ⟨_, List.mem_of_getElem? (i := i) (?_ : (st.cards.set id t')[i]? = some st.cards[i]), hpa⟩
      rw [List.getElem?_set_ne, List.getElem?_eq_getElem hi]
      intro ei
      subst ei
      rw [List.getElem?_eq_getElem hi] at ht
      exact hat (Option.some.inj ht)
  · obtain ⟨id', b', w', a, c⟩ := h.card q hq
    exact ⟨id', b', w', a, ⟨c.bm, (hcard q hq _ _ _ c.bm).trans c.card, c.cov, c.out, c.pos, c.one⟩⟩
  · dsimp only at hv
    rw [e3] at hv
    show (X u + if litVal u o then mc else 0) + mc * (cnt u t'.ilits - (b + 1)) = (X v + if litVal v o then mc else 0) + mc * (cnt v t'.ilits - (b + 1))
    rw [hX u v hv, litVal_congr (hv _ hol), e9, cnt_congr fun l hl => hv _ (hcnt.bins l hl)]
  · dsimp only at hv
    rw [e3] at hv
    exact h.yc u v hv
  · have h1 := h.sound u (e2.holds hu)
    have h2 := sub_split mc (cnt u t.ilits) b
    have h3 : (if b + 1 ≤ cnt u t.ilits then mc else 0) ≤ if litVal u o then mc else 0 := by
      split
      · rename_i hle
        rw [hcnt.outTrue hc ho (e2.holds hu) hle]; simp
      · exact Nat.zero_le _
    rw [hsum u, e9]
    show costC u P.soft ≤ lb + st.softSum u + st.cardSum u + ((X u + if litVal u o then mc else 0) + mc * (cnt u t.ilits - (b + 1)))
    omega
  · obtain ⟨v', g1, g2, g3, g4, g5⟩ := h.complete v hv
    obtain ⟨k1, k2⟩ := e11 v' g2 (g3.card t htm)
    have h2 := sub_split mc (cnt v' t.ilits) b
    have h3 : (if b + 1 ≤ cnt v' t.ilits then mc else 0) = if litVal v' o then mc else 0 := by
      rw [(g3.card t htm).out ho]; simp
    refine ⟨v', g1, k1, ⟨g3.soft, fun a ha => ?_⟩, ?_, g5⟩
    · rcases hmem a ha with rfl | ha
      · rw [e9]; exact k2
      · exact g3.card a ha
    · rw [hsum v', e9]
      show costC v' P.soft = lb + st.softSum v' + st.cardSum v' + ((X v' + if litVal v' o then mc else 0) + mc * (cnt v' t.ilits - (b + 1)))
      omega

/-- a raised bound, assumed if there is such an output -/
theorem OInv.bump {P : Prob} {st : Oll} {lb mc id b o : Nat} {t : Tot} {X : (Nat → Bool) → Nat} {Y : (Nat → Bool) → Prop} (h : OInv P st lb (fun u => X u + mc * (cnt u t.ilits - b)) Y)
    (hX : ∀ u v : Nat → Bool, (∀ x < st.s.n, u x = v x) → X u = X v) (ht : st.cards[id]? = some t) (hf : st.Free id) (hc : ∀ z ∈ t.zs, b ≤ z.rhs) (ho : t.out[b]? = some o) (h0 : 0 < mc) :
    ∃ st', st.bump id b mc = some st' ∧ OInv P st' lb (fun u => X u + if litVal u o then mc else 0) Y ∧ st'.soft = st.soft ∧ st'.rs = st.rs ∧ st'.rc = st.rc ∧ Ext st.s st'.s ∧
      (∀ q ∈ st.ca, q ∈ st'.ca ∧ st'.bm q = st.bm q) := by
  have hol : o / 2 < st.s.n := (h.cards t (List.mem_of_getElem? ht)).1.out o (List.mem_of_getElem? ho)
  obtain ⟨t', s', as, e1, e2, e3, e4, e5, e6, e7, e8, e9⟩ := h.raise hX ht hf hc ho
  have hX' : ∀ u v : Nat → Bool, (∀ x < s'.n, u x = v x) → (X u + if litVal u o then mc else 0) = X v + if litVal v o then mc else 0 := fun u v hv => by
    rw [e5] at hv
    rw [hX u v hv, litVal_congr (hv _ hol)]
  unfold Oll.bump
  rw [ht]; dsimp only
  rw [e1]
  show ∃ st', some _ = some st' ∧ _
  refine ⟨_, rfl, ?_⟩
  dsimp only
  cases hn : t'.out[b + 1]? with
  | none =>
    dsimp only
    refine ⟨e9.imp hX' e9.yc (fun u hu => ?_) (fun v hv hcv hy => ⟨?_, hy⟩), rfl, rfl, rfl, e6, fun q hq => ⟨hq, rfl⟩⟩
    · show _ + mc * (cnt u t'.ilits - (b + 1)) ≤ _
      rw [show cnt u t'.ilits - (b + 1) = 0 by
        have := cnt_le u t'.ilits
        have h1 := ((e9.cards t' (List.mem_of_getElem? e8)).1).length
        have h2 := List.getElem?_eq_none_iff.1 hn
        omega]
      exact Nat.le_refl _
    · show _ + mc * (cnt v t'.ilits - (b + 1)) = _
      rw [show cnt v t'.ilits - (b + 1) = 0 by
        have := cnt_le v t'.ilits
        have h1 := ((e9.cards t' (List.mem_of_getElem? e8)).1).length
        have h2 := List.getElem?_eq_none_iff.1 hn
        omega]
      rfl
  | some o' =>
    dsimp only
    refine ⟨OInv.put (st := { st with cards := st.cards.set id t', s := s' }) e9 hX' e8 e7 e4 hn h0 (by omega), rfl, rfl, rfl, e6, fun q hq => ⟨mem_insA.2 (.inr hq), ?_⟩⟩
    refine upd_ne fun e => ?_
    obtain ⟨id', b', w', a, c⟩ := h.card q hq
    rw [e2] at hn
    exact h.outs _ _ _ _ c.card ht (hf q hq _ _ _ c.bm) q c.mem (e ▸ List.mem_of_getElem? hn)

/-- a new totalizer -/
theorem OInv.addCard {P : Prob} {st : Oll} {lb b : Nat} {L : List Nat} {X : (Nat → Bool) → Nat} {Y : (Nat → Bool) → Prop} (h : OInv P st lb X Y) (h0 : b ≠ 0) (hl : b < L.length)
    (hL : Below st.s.n L) {t : Tot} {s' : Sol} (e : Tot.build { inc := true } st.s L b = (t, s')) :
    t.ilits = L ∧ t.out.length = L.length ∧ (∀ o ∈ t.out, st.s.n ≤ o / 2) ∧ (∀ z ∈ t.zs, b ≤ z.rhs) ∧ Ext st.s s' ∧
      OInv P { st with s := s', cards := st.cards ++ [t] } lb X Y ∧ Oll.Free { st with s := s', cards := st.cards ++ [t] } st.cards.length ∧ (st.cards ++ [t])[st.cards.length]? = some t := by
  have hold : ({ inc := true } : Tot).old = [] := rfl
  obtain ⟨b1, b2, b3, b4, b5, b6, b7, b8, b9⟩ := build_spec (t := { inc := true }) (s := st.s) (lits := L) (rhs := b) h0 (by simp) (by omega)
    ⟨h.wf, (fun z hz => by rw [hold] at hz; cases hz), (fun z hz => by rw [hold] at hz; cases hz)⟩ hL
  have hout : (Tot.build { inc := true } st.s L b).1.out = (st.s.freshN L.length).1 := by
    unfold Tot.build
    rw [if_neg h0, if_neg (by simp), if_neg (by omega)]
  rw [e] at b1 b2 b3 b4 b5 b6 b8 b9 hout
  dsimp only at b1 b2 b3 b4 b5 b6 b8 b9 hout
  have hfresh : ∀ o ∈ t.out, st.s.n ≤ o / 2 := fun o ho => by rw [hout] at ho; exact freshN_ge ho
  have hw : s'.WF := b6.pre.swf
  have hget : ∀ (i : Nat) (a : Tot), (st.cards ++ [t])[i]? = some a → (i < st.cards.length ∧ st.cards[i]? = some a) ∨ (i = st.cards.length ∧ a = t) := fun i a ha => by
    rw [List.getElem?_append] at ha
    split at ha
    · exact .inl ⟨‹_›, ha⟩
    · refine .inr ?_
      obtain ⟨hi, hi'⟩ := List.getElem?_eq_some_iff.1 ha
      rw [List.length_singleton] at hi
      refine ⟨by omega, ?_⟩
      rw [← hi', List.getElem_singleton]
  have hcard : ∀ i a, st.cards[i]? = some a → (st.cards ++ [t])[i]? = some a := fun i a ha => by
    obtain ⟨hi, _⟩ := List.getElem?_eq_some_iff.1 ha
    rw [List.getElem?_append_left hi, ha]
  have hsum : ∀ u, Oll.cardSum { st with s := s', cards := st.cards ++ [t] } u = st.cardSum u := fun u => by
    unfold Oll.cardSum
    refine sum_map_congr fun q hq => ?_
    obtain ⟨id', b', w', a, c⟩ := h.card q hq
    unfold Oll.term
    dsimp only
    rw [c.bm]; dsimp only
    rw [c.card, hcard _ _ c.card]
  have hlow : ∀ a ∈ st.cards, ∀ l ∈ a.out, l / 2 < st.s.n := fun a ha l hl => (h.cards a ha).1.out l hl
  refine ⟨b4, by rw [b6.length], hfresh, fun z hz => ?_, b5, ?_, fun q hq id' b' w' e1 e2 => ?_, by simp⟩
  · rcases b8 z hz with h | h
    · rw [hold] at h; cases h
    · exact Nat.le_of_eq h.symm
  · refine ⟨hw, h.ext.trans b5, fun x hx => ⟨b5.cs _ (h.soft x hx).1, (h.soft x hx).2⟩, h.lits, h.cost, fun a ha => ?_, fun i j a c hi hj hij l hl hlc => ?_, fun x hx a ha hxa => ?_, fun p e hp => ?_,
      h.nodup, fun q hq => ?_, h.inj, fun u v hv => h.xc u v fun x hx => hv x (Nat.lt_of_lt_of_le hx b5.n), fun u v hv => h.yc u v fun x hx => hv x (Nat.lt_of_lt_of_le hx b5.n), fun u hu => ?_, fun v hv => ?_⟩
    · rcases List.mem_append.1 ha with ha | ha
      · exact h.cardsExt b5 hw a ha
      · rw [List.mem_singleton.1 ha, b4]; exact ⟨b6, b3⟩
    · rcases hget i a hi with ⟨_, ha⟩ | ⟨ei, rfl⟩
      · rcases hget j c hj with ⟨_, hc⟩ | ⟨ej, rfl⟩
        · exact h.outs i j a c ha hc hij l hl hlc
        · have h1 := hlow a (List.mem_of_getElem? ha) l hl
          have h2 := hfresh l hlc
          omega
      · rcases hget j c hj with ⟨_, hc⟩ | ⟨ej, rfl⟩
        · have h1 := hlow c (List.mem_of_getElem? hc) l hlc
          have h2 := hfresh l hl
          omega
        · exact hij (ei.trans ej.symm)
    · rcases List.mem_append.1 ha with ha | ha
      · exact h.sdis x hx a ha hxa
      · rw [List.mem_singleton.1 ha] at hxa
        have h1 := h.litBelow hx
        have h2 := hfresh _ hxa
        omega
    · obtain ⟨a, ha, hpa⟩ := h.dom p e hp
      exact ⟨a, List.mem_append_left _ ha, hpa⟩
    · obtain ⟨id', b', w', a, c⟩ := h.card q hq
      exact ⟨id', b', w', a, ⟨c.bm, hcard _ _ c.card, c.cov, c.out, c.pos, c.one⟩⟩
    · rw [hsum u]; exact h.sound u (b5.holds hu)
    · obtain ⟨v', g1, g2, g3, g4, g5⟩ := h.complete v hv
      obtain ⟨w, k1, k2, k3⟩ := b9 v' g2 fun z hz => by rw [hold] at hz; cases hz
      obtain ⟨c1, c2, c3, c4⟩ := h.congr (u := v') (v := w) fun x hx => (k1 x hx).symm
      have hX := h.xc v' w fun x hx => (k1 x hx).symm
      have hc := c4 g3
      refine ⟨w, fun x hx => ?_, k2, ⟨hc.soft, fun a ha => ?_⟩, ?_, h.yc v' w (fun x hx => (k1 x hx).symm) g5⟩
      · rw [k1 x (Nat.lt_of_lt_of_le (Nat.lt_of_lt_of_le hx (Nat.le_add_right _ _)) h.ext.n), g1 x hx]
      · rcases List.mem_append.1 ha with ha | ha
        · exact hc.card a ha
        · rw [List.mem_singleton.1 ha, b4]; exact k3
      · rw [hsum w]
        show costC w P.soft = lb + st.softSum w + st.cardSum w + X w
        rw [← c1, ← c2, ← c3, ← hX]; exact g4
  · obtain ⟨id2, b2, w2, a, c⟩ := h.card q hq
    have : st.bm q = some (id', b', w') := e1
    rw [c.bm] at this
    injection this with this
    injection this with this
    subst this e2
    have := c.card
    rw [List.getElem?_eq_none (Nat.le_refl _)] at this
    cases this

/-! ## the literals of a conflict -/

/-- a literal that may occur in a conflict: of a soft clause or a cardinality constraint with at least this weight -/
def Oll.Pend (mc : Nat) (st : Oll) (p : Nat) : Prop :=
  (∃ (i : Nat) (x : Sft), st.soft[i]? = some x ∧ x.l = p ∧ x.act = false ∧ mc ≤ x.w) ∨ (p ∈ st.ca ∧ ∃ id b w, st.bm p = some (id, b, w) ∧ mc ≤ w)

theorem coreIdx_of {st : Oll} (hn : (st.soft.map (·.l)).Nodup) {i : Nat} {x : Sft} (hx : st.soft[i]? = some x) : st.coreIdx x.l = some i := by
  unfold Oll.coreIdx
  obtain ⟨hi, hxi⟩ := List.getElem?_eq_some_iff.1 hx
  rw [List.findIdx?_eq_some_iff_getElem]
  refine ⟨hi, by rw [hxi]; simp, fun j hj => ?_⟩
  simp only [decide_eq_true_eq]
  intro e
  have := (List.nodup_iff_injective_getElem.1 hn) (a₁ := ⟨i, by simpa using hi⟩) (a₂ := ⟨j, by simp; omega⟩) (by simp [hxi, e])
  simp only [Fin.mk.injEq] at this
  omega

theorem coreIdx_none {st : Oll} {p : Nat} (h : ∀ x ∈ st.soft, x.l ≠ p) : st.coreIdx p = none := by
  unfold Oll.coreIdx
  rw [List.findIdx?_eq_none_iff]
  intro x hx
  exact decide_eq_false (h x hx)

theorem OInv.bmNone {P : Prob} {st : Oll} {lb : Nat} {X : (Nat → Bool) → Nat} {Y : (Nat → Bool) → Prop} (h : OInv P st lb X Y) {x : Sft} (hx : x ∈ st.soft) : st.bm x.l = none := by
  cases hb : st.bm x.l with
  | none => rfl
  | some e =>
    obtain ⟨t, ht, hm⟩ := h.dom _ _ hb
    exact absurd hm (h.sdis x hx t ht)

theorem OInv.idxNone {P : Prob} {st : Oll} {lb : Nat} {X : (Nat → Bool) → Nat} {Y : (Nat → Bool) → Prop} (h : OInv P st lb X Y) {p : Nat} (hp : p ∈ st.ca) : st.coreIdx p = none := by
  obtain ⟨id, b, w, t, c⟩ := h.card p hp
  exact coreIdx_none fun x hx e => h.sdis x hx t (List.mem_of_getElem? c.card) (e ▸ c.mem)

theorem cnt_one (u : Nat → Bool) (p : Nat) : cnt u [p] = if litVal u p then 1 else 0 := by
  unfold cnt
  rw [List.countP_singleton]

theorem mul_one_cnt (mc : Nat) (u : Nat → Bool) (p : Nat) : mc * cnt u [p] = if litVal u p then mc else 0 := by
  rw [cnt_one]; split <;> simp

/-- the state while the literals of a conflict are processed -/
structure RInv (P : Prob) (st : Oll) (lb mc : Nat) (done : List Nat) : Prop where
  inv : OInv P st lb (fun u => mc * cnt u (st.rs ++ st.rc)) (fun v => cnt v (st.rs ++ st.rc) = cnt v done)
  low : Below st.s.n (st.rs ++ st.rc)
  dlow : Below st.s.n done

theorem RInv.step {P : Prob} {st : Oll} {lb mc p : Nat} {done : List Nat} (h : RInv P st lb mc done) (h0 : 0 < mc) (hp : st.Pend mc p) :
    ∃ st', Oll.cardW mc (st.softW mc p) p = some st' ∧ RInv P st' lb mc (done ++ [p]) ∧ Ext st.s st'.s ∧ ∀ q, q ≠ p → st.Pend mc q → st'.Pend mc q := by
  obtain ⟨inv, low, dlow⟩ := h
  have hXc : ∀ {n : Nat} {L : List Nat}, Below n L → ∀ u v : Nat → Bool, (∀ x < n, u x = v x) → mc * cnt u L = mc * cnt v L := fun hb u v e => by
    rw [cnt_congr fun l hl => e _ (hb l hl)]
  have hYc : ∀ {n : Nat} {L D : List Nat}, Below n L → Below n D → ∀ u v : Nat → Bool, (∀ x < n, u x = v x) → cnt u L = cnt u D → cnt v L = cnt v D := fun hb hd u v e h => by
    rw [← cnt_congr fun l hl => e _ (hb l hl), h, cnt_congr fun l hl => e _ (hd l hl)]
  have hmid : ∀ (u : Nat → Bool) (a b : List Nat) (q : Nat), cnt u (a ++ [q] ++ b) = cnt u (a ++ b) + cnt u [q] := fun u a b q => by
    rw [cnt_append, cnt_append, cnt_append]; omega
  rcases hp with ⟨i, x, hx, rfl, ha, hmc⟩ | ⟨hpc, id, b, w, hbm, hmc⟩
  · have hxm : x ∈ st.soft := List.mem_of_getElem? hx
    have hxl := inv.litBelow hxm
    have hdl : Below st.s.n (done ++ [x.l]) := fun l hl => (List.mem_append.1 hl).elim (dlow l) fun hl => by rw [List.mem_singleton.1 hl]; exact hxl
    obtain ⟨hi, _⟩ := List.getElem?_eq_some_iff.1 hx
    unfold Oll.softW
    rw [coreIdx_of inv.lits hx]; dsimp only
    rw [hx]; dsimp only
    split
    · rename_i hlt
      have hb : st.bm x.l = none := inv.bmNone hxm
      have hs := (inv.softSplit hx ha h0 hlt).relax (st.rs ++ [2 * st.s.n]) st.rc
      have hb1 : Below (st.s.n + 1) (st.rs ++ [2 * st.s.n] ++ st.rc) := fun l hl => by
        rcases List.mem_append.1 hl with hl | hl
        · rcases List.mem_append.1 hl with hl | hl
          · exact Nat.lt_succ_of_lt (low l (List.mem_append_left _ hl))
          · rw [List.mem_singleton.1 hl]; omega
        · exact Nat.lt_succ_of_lt (low l (List.mem_append_right _ hl))
      have hb2 : Below (st.s.n + 1) (done ++ [x.l]) := hdl.mono (Nat.le_succ _)
      refine ⟨_, by unfold Oll.cardW; dsimp only; rw [hb], ⟨hs.imp (hXc hb1) (hYc hb1 hb2) (fun u _ => ?_) (fun v _ _ hy => ⟨?_, ?_⟩), hb1, hb2⟩,
        ⟨Nat.le_succ _, fun c hc => List.mem_cons_of_mem _ hc⟩, fun q hq hpq => ?_⟩
      · show mc * cnt u (st.rs ++ st.rc) + (if litVal u (2 * st.s.n) then mc else 0) ≤ mc * cnt u (st.rs ++ [2 * st.s.n] ++ st.rc)
        rw [hmid, Nat.mul_add, mul_one_cnt]; exact Nat.le_refl _
      · show mc * cnt v (st.rs ++ st.rc) + (if litVal v (2 * st.s.n) then mc else 0) = mc * cnt v (st.rs ++ [2 * st.s.n] ++ st.rc)
        rw [hmid, Nat.mul_add, mul_one_cnt]
      · obtain ⟨y1, y2⟩ := hy
        show cnt v (st.rs ++ [2 * st.s.n] ++ st.rc) = cnt v (done ++ [x.l])
        rw [hmid, y1, cnt_append, cnt_one, cnt_one, y2]
      · rcases hpq with ⟨j, y, hy, hl, hya, hw⟩ | hpq
        · have hij : i ≠ j := fun e => by
            subst e
            rw [hx] at hy
            injection hy with hy
            subst hy
            exact hq hl.symm
          obtain ⟨hj, _⟩ := List.getElem?_eq_some_iff.1 hy
          refine .inl ⟨j, y, ?_, hl, hya, hw⟩
          show (st.soft.set i _ ++ _)[j]? = _
          rw [List.getElem?_append_left (by rw [List.length_set]; exact hj), List.getElem?_set_ne hij, hy]
        · exact .inr hpq
    · rename_i hlt
      have hxw : x.w = mc := by omega
      have hb : st.bm x.l = none := inv.bmNone hxm
      have hs := (inv.softFull hx ha).relax (st.rs ++ [x.l]) st.rc
      have hb1 : Below st.s.n (st.rs ++ [x.l] ++ st.rc) := fun l hl => by
        rcases List.mem_append.1 hl with hl | hl
        · rcases List.mem_append.1 hl with hl | hl
          · exact low l (List.mem_append_left _ hl)
          · rw [List.mem_singleton.1 hl]; exact hxl
        · exact low l (List.mem_append_right _ hl)
      refine ⟨_, by unfold Oll.cardW; dsimp only; rw [hb], ⟨hs.imp (hXc hb1) (hYc hb1 hdl) (fun u _ => ?_) (fun v _ _ hy => ⟨?_, ?_⟩), hb1, hdl⟩,
        Ext.refl _, fun q hq hpq => ?_⟩
      · show mc * cnt u (st.rs ++ st.rc) + (if litVal u x.l then x.w else 0) ≤ mc * cnt u (st.rs ++ [x.l] ++ st.rc)
        rw [hmid, Nat.mul_add, mul_one_cnt, hxw]; exact Nat.le_refl _
      · show mc * cnt v (st.rs ++ st.rc) + (if litVal v x.l then x.w else 0) = mc * cnt v (st.rs ++ [x.l] ++ st.rc)
        rw [hmid, Nat.mul_add, mul_one_cnt, hxw]
      · show cnt v (st.rs ++ [x.l] ++ st.rc) = cnt v (done ++ [x.l])
        rw [hmid, hy, cnt_append]
      · rcases hpq with ⟨j, y, hy, hl, hya, hw⟩ | hpq
        · have hij : i ≠ j := fun e => by
            subst e
            rw [hx] at hy
            injection hy with hy
            subst hy
            exact hq hl.symm
          refine .inl ⟨j, y, ?_, hl, hya, hw⟩
          show (st.soft.set i _)[j]? = _
          rw [List.getElem?_set_ne hij, hy]
        · exact .inr hpq
  · obtain ⟨id', b', w', t, c⟩ := inv.card p hpc
    have : (id', b', w') = (id, b, w) := Option.some.inj (c.bm.symm.trans hbm)
    injection this with e1 e2
    injection e2 with e2 e3
    subst e1 e2 e3
    have htm : t ∈ st.cards := List.mem_of_getElem? c.card
    have hcn := (inv.cards t htm).1
    have hpl : p / 2 < st.s.n := hcn.out p c.mem
    have hdl : Below st.s.n (done ++ [p]) := fun l hl => (List.mem_append.1 hl).elim (dlow l) fun hl => by rw [List.mem_singleton.1 hl]; exact hpl
    have hsw : st.softW mc p = st := by
      unfold Oll.softW
      rw [inv.idxNone hpc]
    have hend : ∀ (u : Nat → Bool) (a b : List Nat) (q : Nat), cnt u (a ++ (b ++ [q])) = cnt u (a ++ b) + cnt u [q] := fun u a b q => by
      rw [← List.append_assoc, cnt_append]
    rw [hsw]
    unfold Oll.cardW
    rw [c.bm]; dsimp only
    split
    · rename_i hw
      subst hw
      obtain ⟨k1, k2⟩ := inv.take hpc c
      have k3 := k1.relax st.rs (st.rc ++ [p])
      obtain ⟨st', e1, e2, e3, e4, e5, e6, e7⟩ := OInv.bump (st := { st with ca := st.ca.erase p, rc := st.rc ++ [p] }) (X := fun u => w' * cnt u (st.rs ++ st.rc)) k3 (hXc low) c.card k2 c.cov c.out h0
      have hb1 : Below st'.s.n (st'.rs ++ st'.rc) := by
        rw [e4, e5]
        refine Below.mono (n := st.s.n) (fun l hl => ?_) e6.n
        rcases List.mem_append.1 hl with hl | hl
        · exact low l (List.mem_append_left _ hl)
        · rcases List.mem_append.1 hl with hl | hl
          · exact low l (List.mem_append_right _ hl)
          · rw [List.mem_singleton.1 hl]; exact hpl
      have hb2 : Below st'.s.n (done ++ [p]) := hdl.mono e6.n
      refine ⟨st', e1, ⟨e2.imp (hXc hb1) (hYc hb1 hb2) (fun u _ => ?_) (fun v _ _ hy => ⟨?_, ?_⟩), hb1, hb2⟩, e6, fun q hq hpq => ?_⟩
      · show w' * cnt u (st.rs ++ st.rc) + (if litVal u p then w' else 0) ≤ w' * cnt u (st'.rs ++ st'.rc)
        rw [e4, e5, hend, Nat.mul_add, mul_one_cnt]; exact Nat.le_refl _
      · show w' * cnt v (st.rs ++ st.rc) + (if litVal v p then w' else 0) = w' * cnt v (st'.rs ++ st'.rc)
        rw [e4, e5, hend, Nat.mul_add, mul_one_cnt]
      · show cnt v (st'.rs ++ st'.rc) = cnt v (done ++ [p])
        rw [e4, e5, hend, hy, cnt_append]
      · rcases hpq with ⟨j, y, hy, hl, hya, hw⟩ | ⟨hqc, id, b, w, hqb, hqw⟩
        · exact .inl ⟨j, y, by rw [e3]; exact hy, hl, hya, hw⟩
        · obtain ⟨f1, f2⟩ := e7 q ((List.mem_erase_of_ne hq).2 hqc)
          exact .inr ⟨f1, id, b, w, f2.trans hqb, hqw⟩
    · rename_i hw
      rw [c.card]; dsimp only
      obtain ⟨nt, hnt⟩ : ∃ nt, Tot.build { inc := true } st.s t.ilits b' = nt := ⟨_, rfl⟩
      obtain ⟨t', s'⟩ := nt
      rw [hnt]; dsimp only
      obtain ⟨hbl, _⟩ := List.getElem?_eq_some_iff.1 c.out
      obtain ⟨a1, a2, a3, a4, a5, a6, a7, a8⟩ := inv.addCard (b := b') (L := t.ilits) (by have := c.one; omega) (by rw [← hcn.length]; exact hbl) hcn.bins hnt
      have hlt : b' < t'.out.length := by rw [a2, ← hcn.length]; exact hbl
      obtain ⟨o, ho⟩ : ∃ o, t'.out[b']? = some o := ⟨_, List.getElem?_eq_getElem hlt⟩
      rw [ho]; dsimp only
      have hom : o ∈ t'.out := List.mem_of_getElem? ho
      have hof : st.s.n ≤ o / 2 := a3 o hom
      have hoc : ∀ q ∈ st.ca, q ≠ o := fun q hq e => by
        obtain ⟨_, _, _, tq, cq⟩ := inv.card q hq
        have := (inv.cards tq (List.mem_of_getElem? cq.card)).1.out q cq.mem
        rw [e] at this
        omega
      have hol : o / 2 < s'.n := (a6.cards t' (List.mem_of_getElem? a8)).1.out o hom
      -- the values of both literals agree
      have i1 : OInv P { st with s := s', cards := st.cards ++ [t'] } lb (fun u => mc * cnt u (st.rs ++ st.rc)) (fun v => cnt v (st.rs ++ st.rc) = cnt v done ∧ litVal v o = litVal v p) := by
        refine a6.imp a6.xc (fun u v e hy => ⟨a6.yc u v e hy.1, ?_⟩) (fun u _ => Nat.le_refl _) (fun v hv hc hy => ⟨rfl, hy, ?_⟩)
        · rw [← litVal_congr (e _ hol), hy.2, litVal_congr (e _ (Nat.lt_of_lt_of_le hpl a5.n))]
        · rw [(hc.card t' (List.mem_append_right _ (List.mem_singleton.2 rfl))).out ho, (hc.card t (List.mem_append_left _ htm)).out c.out, a1]
      have i2 := i1.junk (o := o) (e := (st.cards.length, b', mc)) (fun h => hoc o h rfl) ⟨t', List.mem_append_right _ (List.mem_singleton.2 rfl), hom⟩
      have c2 : CardAt { st with s := s', cards := st.cards ++ [t'], bm := upd st.bm o (st.cards.length, b', mc) } p id' b' w' t :=
        ⟨(upd_ne (hoc p hpc)).trans c.bm, by
          obtain ⟨hi, _⟩ := List.getElem?_eq_some_iff.1 c.card
          show (st.cards ++ [t'])[id']? = some t
          rw [List.getElem?_append_left hi, c.card], c.cov, c.out, c.pos, c.one⟩
      have i3 := (i2.reweight (mc := mc) hpc c2 (by omega)).relax st.rs (st.rc ++ [o])
      have hfree : Oll.Free { st with s := s', cards := st.cards ++ [t'], bm := upd (upd st.bm o (st.cards.length, b', mc)) p (id', b', w' - mc), ca := st.ca, rs := st.rs, rc := st.rc ++ [o] } st.cards.length := by
        intro q hq id2 b2 w2 hb2 e
        dsimp only at hb2 hq
        by_cases eq : q = p
        · subst eq
          rw [upd_self] at hb2
          injection hb2 with hb2
          injection hb2 with hb2
          obtain ⟨hi, _⟩ := List.getElem?_eq_some_iff.1 c.card
          omega
        · rw [upd_ne eq, upd_ne (hoc q hq)] at hb2
          exact a7 q hq _ _ _ hb2 e
      have i4 : OInv P { st with s := s', cards := st.cards ++ [t'], bm := upd (upd st.bm o (st.cards.length, b', mc)) p (id', b', w' - mc), ca := st.ca, rs := st.rs, rc := st.rc ++ [o] } lb
          (fun u => mc * cnt u (st.rs ++ st.rc) + mc * (cnt u t'.ilits - b')) (fun v => cnt v (st.rs ++ st.rc) = cnt v done ∧ litVal v o = litVal v p) := by rw [a1]; exact i3
      obtain ⟨st', e1, e2, e3, e4, e5, e6, e7⟩ := OInv.bump (X := fun u => mc * cnt u (st.rs ++ st.rc)) i4 (hXc (low.mono a5.n)) a8 hfree a4 ho h0
      have he : Ext st.s st'.s := a5.trans e6
      have hb1 : Below st'.s.n (st'.rs ++ st'.rc) := by
        rw [e4, e5]
        refine Below.mono (n := s'.n) (fun l hl => ?_) e6.n
        rcases List.mem_append.1 hl with hl | hl
        · exact Nat.lt_of_lt_of_le (low l (List.mem_append_left _ hl)) a5.n
        · rcases List.mem_append.1 hl with hl | hl
          · exact Nat.lt_of_lt_of_le (low l (List.mem_append_right _ hl)) a5.n
          · rw [List.mem_singleton.1 hl]; exact hol
      have hb2 : Below st'.s.n (done ++ [p]) := hdl.mono he.n
      refine ⟨st', e1, ⟨e2.imp (hXc hb1) (hYc hb1 hb2) (fun u _ => ?_) (fun v _ _ hy => ⟨?_, ?_⟩), hb1, hb2⟩, he, fun q hq hpq => ?_⟩
      · show mc * cnt u (st.rs ++ st.rc) + (if litVal u o then mc else 0) ≤ mc * cnt u (st'.rs ++ st'.rc)
        rw [e4, e5, hend, Nat.mul_add, mul_one_cnt]; exact Nat.le_refl _
      · show mc * cnt v (st.rs ++ st.rc) + (if litVal v o then mc else 0) = mc * cnt v (st'.rs ++ st'.rc)
        rw [e4, e5, hend, Nat.mul_add, mul_one_cnt]
      · show cnt v (st'.rs ++ st'.rc) = cnt v (done ++ [p])
        rw [e4, e5, hend, hy.1, cnt_append, cnt_one, cnt_one, hy.2]
      · rcases hpq with ⟨j, y, hy, hl, hya, hw⟩ | ⟨hqc, id, b, w, hqb, hqw⟩
        · exact .inl ⟨j, y, by rw [e3]; exact hy, hl, hya, hw⟩
        · obtain ⟨f1, f2⟩ := e7 q hqc
          refine .inr ⟨f1, id, b, w, f2.trans ?_, hqw⟩
          show upd (upd st.bm o _) p _ q = _
          rw [upd_ne hq, upd_ne (hoc q hqc), hqb]

/-- all literals of a conflict -/
theorem RInv.all {P : Prob} {lb mc : Nat} (h0 : 0 < mc) : ∀ (core done : List Nat) (st : Oll), RInv P st lb mc done → core.Nodup → (∀ p ∈ core, st.Pend mc p) →
    ∃ st', core.foldlM (fun st p => Oll.cardW mc (st.softW mc p) p) st = some st' ∧ RInv P st' lb mc (done ++ core) ∧ Ext st.s st'.s
  | [], done, st, h, _, _ => ⟨st, rfl, by rw [List.append_nil]; exact h, Ext.refl _⟩
  | p :: core, done, st, h, hn, hp => by
    obtain ⟨hn1, hn2⟩ := List.nodup_cons.1 hn
    obtain ⟨st1, e1, e2, e3, e4⟩ := h.step h0 (hp p List.mem_cons_self)
    obtain ⟨st', f1, f2, f3⟩ := RInv.all h0 core (done ++ [p]) st1 e2 hn2 fun q hq => e4 q (fun e => hn1 (e ▸ hq)) (hp q (List.mem_cons_of_mem _ hq))
    refine ⟨st', ?_, by rw [List.append_assoc] at f2; exact f2, e3.trans f3⟩
    rw [List.foldlM_cons, e1]
    exact f1

/-- the conflict costs its least weight -/
theorem OInv.pay {P : Prob} {st : Oll} {lb mc : Nat} {R core : List Nat} (h : OInv P st lb (fun u => mc * cnt u R) (fun v => cnt v R = cnt v core)) (hR : Below st.s.n R)
    (hc : ∀ u, st.s.Holds u → 1 ≤ cnt u core) : OInv P st (lb + mc) (fun u => mc * (cnt u R - 1)) (fun v => 1 ≤ cnt v R) := by
  have hcg : ∀ u v : Nat → Bool, (∀ x < st.s.n, u x = v x) → cnt u R = cnt v R := fun u v e => cnt_congr fun l hl => e _ (hR l hl)
  refine { h with xc := fun u v e => by rw [hcg u v e], yc := fun u v e => by rw [hcg u v e]; exact id, sound := fun u hu => ?_, complete := fun v hv => ?_ }
  · have h1 := h.sound u hu
    have h2 : mc * cnt u R ≤ mc + mc * (cnt u R - 1) := by
      by_cases h0 : cnt u R = 0
      · rw [h0]; simp
      · rw [show cnt u R = 1 + (cnt u R - 1) by omega, Nat.mul_add, Nat.mul_one, Nat.add_sub_cancel_left]; exact Nat.le_refl _
    omega
  · obtain ⟨v', g1, g2, g3, g4, g5⟩ := h.complete v hv
    have h1 : 1 ≤ cnt v' R := by rw [g5]; exact hc v' g2
    have h2 : mc * cnt v' R = mc + mc * (cnt v' R - 1) := by
      rw [show cnt v' R = 1 + (cnt v' R - 1) by omega, Nat.mul_add, Nat.mul_one, Nat.add_sub_cancel_left]
    refine ⟨v', g1, g2, g3, ?_, h1⟩
    omega

/-- a clause that the exact values satisfy -/
theorem OInv.addClause {P : Prob} {st : Oll} {lb : Nat} {X : (Nat → Bool) → Nat} {Y : (Nat → Bool) → Prop} (h : OInv P st lb X Y) {c : List Nat} (hb : Below st.s.n c)
    (hc : ∀ v, Y v → clauseVal v c = true) : OInv P { st with s := st.s.add c } lb X Y := by
  have he : Ext st.s (st.s.add c) := ⟨Nat.le_refl _, fun _ hx => List.mem_cons_of_mem _ hx⟩
  have hw : (st.s.add c).WF := fun d hd l hl => by
    rcases List.mem_cons.1 hd with rfl | hd
    · exact hb l hl
    · exact h.wf d hd l hl
  exact { h with
    wf := hw, ext := h.ext.trans he, soft := fun x hx => ⟨he.cs _ (h.soft x hx).1, (h.soft x hx).2⟩, cards := h.cardsExt he hw
    card := fun p hp => by
      obtain ⟨id, b, w, t, c⟩ := h.card p hp
      exact ⟨id, b, w, t, ⟨c.bm, c.card, c.cov, c.out, c.pos, c.one⟩⟩
    sound := fun u hu => h.sound u (he.holds hu)
    complete := fun v hv => by
      obtain ⟨v', g1, g2, g3, g4, g5⟩ := h.complete v hv
      refine ⟨v', g1, fun d hd => ?_, ⟨g3.soft, g3.card⟩, g4, g5⟩
      rcases List.mem_cons.1 hd with rfl | hd
      · exact hc v' g5
      · exact g2 d hd }

/-- the invariant between two calls of the solver -/
abbrev OI (P : Prob) (st : Oll) (lb : Nat) : Prop := OInv P st lb (fun _ => 0) (fun _ => True)

theorem OInv.toOI {P : Prob} {st : Oll} {lb : Nat} {X : (Nat → Bool) → Nat} {Y : (Nat → Bool) → Prop} (h : OInv P st lb X Y) (hX : ∀ u, X u = 0) : OI P st lb :=
  h.imp (fun _ _ _ => rfl) (fun _ _ _ _ => trivial) (fun u _ => Nat.le_of_eq (hX u)) fun v _ _ _ => ⟨hX v, trivial⟩

theorem close_spec {P : Prob} {st : Oll} {lb mc : Nat} {core : List Nat} (h : RInv P st lb mc core) (h0 : 0 < mc) (hc : ∀ u, st.s.Holds u → 1 ≤ cnt u core) :
    ∃ st', st.close mc = some st' ∧ OI P st' (lb + mc) := by
  have hp := h.inv.pay h.low hc
  unfold Oll.close
  split
  · rename_i hlen
    obtain ⟨nt, hnt⟩ : ∃ nt, Tot.build { inc := true } st.s (st.rs ++ st.rc) 1 = nt := ⟨_, rfl⟩
    obtain ⟨t', s'⟩ := nt
    rw [hnt]; dsimp only
    have hl : 1 < (st.rs ++ st.rc).length := by rw [List.length_append]; exact hlen
    obtain ⟨a1, a2, a3, a4, a5, a6, a7, a8⟩ := hp.addCard (by omega) hl h.low hnt
    obtain ⟨o, ho⟩ : ∃ o, t'.out[1]? = some o := ⟨_, List.getElem?_eq_getElem (by rw [a2]; exact hl)⟩
    rw [ho]; dsimp only
    have i1 : OInv P { st with s := s', cards := st.cards ++ [t'] } (lb + mc) (fun u => 0 + mc * (cnt u t'.ilits - 1)) (fun v => 1 ≤ cnt v (st.rs ++ st.rc)) := by
      rw [a1]
      exact a6.imp (fun u v e => by rw [Nat.zero_add, Nat.zero_add]; exact a6.xc u v e) a6.yc (fun u _ => by omega) fun v _ _ hy => ⟨by omega, hy⟩
    exact ⟨_, rfl, (OInv.put (X := fun _ => 0) i1 (fun _ _ _ => rfl) a8 a7 a4 ho h0 (Nat.le_refl _)).toOI fun _ => rfl⟩
  · rename_i hlen
    have hz : ∀ u : Nat → Bool, mc * (cnt u (st.rs ++ st.rc) - 1) = 0 := fun u => by
      have := cnt_le u (st.rs ++ st.rc)
      rw [List.length_append] at this
      rw [show cnt u (st.rs ++ st.rc) - 1 = 0 by omega, Nat.mul_zero]
    refine ⟨_, rfl, ?_⟩
    split
    · rename_i h1
      have hrc : st.rc = [] := List.eq_nil_of_length_eq_zero h1.2
      have hlow := h.low
      rw [hrc, List.append_nil] at hlow
      refine (hp.addClause hlow fun v hy => ?_).toOI hz
      rw [hrc, List.append_nil] at hy
      refine Classical.byContradiction fun hn => ?_
      have : cnt v st.rs = 0 := cnt_eq_zero.2 fun l hl => Bool.eq_false_iff.2 fun ht => hn (clauseVal_iff.2 ⟨l, hl, ht⟩)
      omega
    · exact hp.toOI hz

theorem cnt_pos {u : Nat → Bool} {L : List Nat} (h : ∃ l ∈ L, litVal u l = true) : 1 ≤ cnt u L := by
  obtain ⟨l, hl, ht⟩ := h
  have := mt (cnt_eq_zero (u := u) (a := L)).1 fun h => by rw [h l hl] at ht; cases ht
  omega

/-- a conflict is relaxed -/
theorem relaxW_spec {P : Prob} {st : Oll} {lb mc : Nat} {core : List Nat} (h : OI P st lb) (h0 : 0 < mc) (hn : core.Nodup) (hp : ∀ p ∈ core, st.Pend mc p)
    (hc : ∀ u, st.s.Holds u → ∃ l ∈ core, litVal u l = true) : ∃ st', st.relaxW mc core = some st' ∧ OI P st' (lb + mc) := by
  have h1 : RInv P { st with rs := [], rc := [] } lb mc [] := by
    refine ⟨(h.relax [] []).imp (fun _ _ _ => rfl) (fun _ _ _ _ => rfl) (fun u _ => Nat.zero_le _) (fun v _ _ _ => ⟨?_, rfl⟩), (fun l hl => by cases hl), (fun l hl => by cases hl)⟩
    show 0 = mc * cnt v []
    exact (Nat.mul_zero _).symm
  obtain ⟨st1, e1, e2, e3⟩ := RInv.all h0 core [] _ h1 hn hp
  rw [List.nil_append] at e2
  obtain ⟨st', f1, f2⟩ := close_spec e2 h0 fun u hu => cnt_pos (hc u (e3.holds hu))
  refine ⟨st', ?_, f2⟩
  unfold Oll.relaxW
  rw [e1]
  exact f1

theorem zipIdx_map_sum (u : Nat → Bool) (n : Nat) : ∀ (S : List (List Nat × Nat)) (k : Nat), ((S.zipIdx k).map fun ci => vs u ⟨ci.1.1, ci.1.2, 2 * (n + ci.2), false⟩).sum = costC u S
  | [], _ => rfl
  | (c, w) :: S, k => by
    rw [List.zipIdx_cons, List.map_cons, List.sum_cons, zipIdx_map_sum u n S (k + 1), costC]
    congr 1

theorem zipIdx_map_cost (n : Nat) (S : List (List Nat × Nat)) (k : Nat) :
    ((S.zipIdx k).map fun ci => (⟨ci.1.1, ci.1.2, 2 * (n + ci.2), false⟩ : Sft)).map (fun x => (x.cl, x.w)) = S := by
  rw [List.map_map]
  exact List.zipIdx_map_fst k S

/-- the start of the search -/
theorem ollInit_OI {P : Prob} (hw : P.WF) (hp : P.Pos) : OI P P.ollInit 0 := by
  have hs : ∀ x ∈ P.ollInit.soft, ∃ ci ∈ P.soft.zipIdx, x = ⟨ci.1.1, ci.1.2, 2 * (P.n + ci.2), false⟩ := fun x hx => by
    obtain ⟨ci, h1, h2⟩ := List.mem_map.1 hx
    exact ⟨ci, h1, h2.symm⟩
  have hss : ∀ u, P.ollInit.softSum u = costC u P.soft := fun u => by
    unfold Oll.softSum Prob.ollInit
    dsimp only
    rw [List.map_map]
    exact zipIdx_map_sum u P.n P.soft 0
  refine ⟨Prob.relaxed_wf hw 0, Ext.refl _, fun x hx => ?_, ?_, fun u => ?_, (fun t ht => by cases ht), (fun i j a b ha => by cases ha), (fun x _ t ht => by cases ht), (fun p e he => by cases he),
    List.nodup_nil, (fun p hp => by cases hp), (fun p hp => by cases hp), fun _ _ _ => rfl, fun _ _ _ _ => trivial, fun u hu => ?_, fun v hv => ?_⟩
  · obtain ⟨ci, h1, rfl⟩ := hs x hx
    refine ⟨List.mem_append_right _ (List.mem_map.2 ⟨ci, List.mem_filter.2 ⟨h1, by simp⟩, rfl⟩), ?_⟩
    exact hp _ (List.fst_mem_of_mem_zipIdx h1)
  · unfold Prob.ollInit
    dsimp only
    rw [List.map_map]
    have : ((fun x : Sft => x.l) ∘ fun ci : (List Nat × Nat) × Nat => (⟨ci.1.1, ci.1.2, 2 * (P.n + ci.2), false⟩ : Sft)) = (fun i => 2 * (P.n + i)) ∘ Prod.snd := rfl
    rw [this, ← List.map_map, List.zipIdx_map_snd]
    exact List.Nodup.map (fun a b e => by omega) (List.nodup_range' ..)
  · unfold Oll.cost Prob.ollInit
    dsimp only
    rw [zipIdx_map_cost]
  · show costC u P.soft ≤ 0 + P.ollInit.softSum u + 0 + 0
    rw [hss]; omega
  · have ht := Prob.tighten_tight hw v
    have hh : P.Holds (P.tighten v) := (Prob.holds_congr hw fun _ hx => Prob.tighten_old hx).2 hv
    refine ⟨P.tighten v, fun x hx => Prob.tighten_old hx, ht.relaxed hh 0, ⟨fun x hx => ?_, fun t ht => by cases ht⟩, ?_, trivial⟩
    · obtain ⟨ci, h1, rfl⟩ := hs x hx
      exact ht ci h1
    · show costC _ P.soft = 0 + P.ollInit.softSum _ + 0 + 0
      rw [hss]; omega

/-- the lower bound is right -/
theorem OInv.low {P : Prob} (hw : P.WF) {st : Oll} {lb : Nat} (h : OI P st lb) {v : Nat → Bool} (hv : P.Holds v) : lb ≤ costC v P.soft := by
  obtain ⟨v', g1, g2, g3, g4, g5⟩ := h.complete v hv
  rw [← costC_congr (u := v') (w := v) fun c hc l hl => g1 _ (hw.soft c hc l hl)]
  omega

/-- a model of all assumptions has the cost of the lower bound -/
theorem OInv.allTrue {P : Prob} {st : Oll} {lb : Nat} (h : OI P st lb) {u : Nat → Bool} (hu : st.s.Holds u) (hs : ∀ x ∈ st.soft, x.act = false → litVal u (neg x.l) = true)
    (hc : ∀ p ∈ st.ca, litVal u (neg p) = true) : costC u P.soft ≤ lb := by
  have h1 : st.softSum u = 0 := by
    unfold Oll.softSum
    rw [List.sum_eq_zero_iff_forall_eq_nat]
    intro y hy
    obtain ⟨x, hx, rfl⟩ := List.mem_map.1 hy
    unfold vs
    cases ha : x.act with
    | true => rfl
    | false =>
      cases hv : clauseVal u x.cl with
      | true => rfl
      | false =>
        have e1 := h.viol hx hu hv
        have e2 := hs x hx ha
        rw [litVal_neg, e1] at e2; cases e2
  have h2 : st.cardSum u = 0 := by
    unfold Oll.cardSum
    rw [List.sum_eq_zero_iff_forall_eq_nat]
    intro y hy
    obtain ⟨p, hp, rfl⟩ := List.mem_map.1 hy
    obtain ⟨id, b, w, t, c⟩ := h.card p hp
    rw [c.term]
    have e2 := hc p hp
    rw [litVal_neg] at e2
    have : ¬ b + 1 ≤ cnt u t.ilits := fun hle => by
      rw [(h.cards t (List.mem_of_getElem? c.card)).1.outTrue c.cov c.out hu hle] at e2; cases e2
    rw [show cnt u t.ilits - b = 0 by omega, Nat.mul_zero]
  have := h.sound u hu
  rw [h1, h2] at this
  exact this

end Verif.MaxAlg
