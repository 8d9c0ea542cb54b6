import Verif.Bdd.ReorderDone
import Verif.Bdd.Props
/-
C53: reordering of variables keeps the BDDs of the caller, the canonicity of the table and the order of variables; it
loses references.
-/
namespace Verif.Bdd
open Verif
set_option linter.unusedSectionVars false
variable {α σ : Type} [DecidableEq α]

/-! ### The meaning of BDDs under an order of variables -/

/-- the value of the node `a` where `val l` is the value of the variable at level `l`. `none`: freed node, or too long a
path. -/
def walkL (nd : Nat → Node) (val : Nat → Bool) : Nat → Nat → Option Bool
  | 0, _ => none
  | f + 1, a =>
    if a = 0 then some false
    else if a = 1 then some true
    else (nd a).low.bind fun lo => walkL nd val f (if val (nd a).lvl then (nd a).high else lo)

/-- the value of the node `a`, where `ρ x` is the value of the variable `x` -/
def bval (o : KO) (ρ : Nat → Bool) (a : Nat) : Option Bool := walkL o.k.nd (fun l => ρ (o.l2v l)) (o.k.n + 1) a

/-- the values of variables by name -/
def byName (names : List α) (v : α → Bool) : Nat → Bool := fun x => ((names[x]?).map v).getD false

/-- the tables of levels and variables are inverse permutations of `0, …, n - 1` -/
def IsOrder (o : KO) : Prop :=
  (∀ x, x < o.k.n → o.v2l x < o.k.n ∧ o.l2v (o.v2l x) = x) ∧ ∀ l, l < o.k.n → o.l2v l < o.k.n ∧ o.v2l (o.l2v l) = l

/-- a node in use: a constant, or a node that is not free -/
def InUse (o : KO) (a : Nat) : Prop := a < 2 ∨ (o.k.nd a).low ≠ none

/-- no two nodes in use have the same values -/
def Canonical (o : KO) : Prop := ∀ a b, InUse o a → InUse o b → (∀ ρ, bval o ρ a = bval o ρ b) → a = b

/-- calls that reorder -/
inductive RCall
  /-- a sequence of moves of variables by one level, `true`: down -/
  | moves (ms : List (Bool × Nat))
  | swap (x y : Nat)

def RCall.ok (n : Nat) : RCall → Prop
  | .moves ms => ∀ m ∈ ms, m.2 < n
  | .swap x y => x < n ∧ y < n

def stepR (P : Par) (Q : RPar) (o : KO) : RCall → Option KO
  | .moves ms => reorder P Q ms o
  | .swap x y => swapVariables P Q x y o

def runR (P : Par) (Q : RPar) (cs : List RCall) (o : KO) : Option KO := cs.foldlM (stepR P Q) o

theorem walkL_rep {n : Nat} {nd : Nat → Node} {val : Nat → Bool} : ∀ {f i m : Nat} {t : T}, Rep nd i t → Ord n m t → m ≤ n →
    n - m < f → walkL nd val f i = some (t.eval val)
  | 0, _, _, _, _, _, _, hf => by omega
  | f + 1, i, m, t, hr, ho, hm, hf => by
    unfold walkL
    cases hr with
    | ff => rfl
    | tt => rfl
    | node h1 h2 h3 h4 =>
      obtain ⟨o1, o2, _, o4, o5⟩ := ho
      rw [if_neg (by omega), if_neg (by omega), h2, Option.bind_some]
      simp only [T.eval]
      split
      · exact walkL_rep h4 o5 (by omega) (by omega)
      · exact walkL_rep h3 o4 (by omega) (by omega)

theorem OInv.bval {P : Par} {o : KO} (h : OInv P o) {i : Nat} {t : T} (hr : Rep o.k.nd i t) (ρ : Nat → Bool) :
    bval o ρ i = some (t.eval fun l => ρ (o.l2v l)) := walkL_rep hr (h.inv.ord hr) (Nat.zero_le _) (by omega)

theorem OInv.rep {P : Par} {o : KO} (h : OInv P o) {a : Nat} (ha : InUse o a) : ∃ t, Rep o.k.nd a t := by
  by_cases h2 : 2 ≤ a
  · obtain ⟨-, t, h1, -⟩ := h.inv.live a h2 (ha.resolve_left (by omega))
    exact ⟨t, h1⟩
  · obtain rfl | rfl : a = 0 ∨ a = 1 := by omega
    · exact ⟨_, .ff⟩
    · exact ⟨_, .tt⟩

theorem OInv.order {P : Par} {o : KO} (h : OInv P o) : IsOrder o := ⟨h.tabs.lv, h.tabs.vl⟩

theorem OInv.canonical {P : Par} {o : KO} (h : OInv P o) : Canonical o := by
  intro a b ha hb he
  obtain ⟨s, hs⟩ := h.rep ha
  obtain ⟨t, ht⟩ := h.rep hb
  have e : s = t := h.tabs.canon (h.inv.ord hs) (h.inv.ord ht) (funext fun ρ => by
    have := he ρ
    rw [h.bval hs, h.bval ht] at this
    exact Option.some.inj this)
  subst e
  exact Inv.idx h.inv hs ht

/-- a table has room for the variables -/
theorem OInv.size {P : Par} {o : KO} (h : OInv P o) : o.k.n ≤ o.k.size := by
  choose! p h1 h2 h3 using h.top
  have hsub : (List.range o.k.n).map p ⊆ List.range o.k.size := by
    intro y hy
    obtain ⟨l, hl, rfl⟩ := List.mem_map.1 hy
    have hl := List.mem_range.1 hl
    exact List.mem_range.2 (h.inv.live _ (h1 l hl) (h.inv.rlive _ (h1 l hl) (h2 l hl))).1
  have hnd : ((List.range o.k.n).map p).Nodup := List.Nodup.map_on (fun x hx y hy e => by
    rw [← h3 x (List.mem_range.1 hx), ← h3 y (List.mem_range.1 hy), e]) List.nodup_range
  simpa using (hnd.subperm hsub).length_le

theorem Good.oinv {P : Par} {w : W α} {own : Nat → Nat} (h : Good P w own) : OInv P ⟨w.k, id, id⟩ where
  inv := h.wf.inv
  lv := h.wf.lv
  tabs := ⟨fun _ h => ⟨h, rfl⟩, fun _ h => ⟨h, rfl⟩⟩
  st := h.wf.st
  vlen := h.wf.vlen
  vars v p q e := by
    obtain ⟨a, b, c, d⟩ := h.wf.vars v p q e
    exact ⟨by show 0 < (w.k.nd p).ref; rw [a]; decide, by show 0 < (w.k.nd q).ref; rw [b]; decide, c, d⟩
  seg := h.wf.seg

/-- what the caller may rely on after a reordering from `o` to `o'`: held BDDs have the values they had; a held BDD keeps
its reference unless it is part of a held BDD with a smaller index; no node gets a reference that had none -/
structure RKept (o o' : KO) : Prop where
  n : o'.k.n = o.k.n
  lits : o'.k.vars = o.k.vars
  val : ∀ a, 2 ≤ a → 0 < (o.k.nd a).ref → InUse o' a ∧ ∀ ρ, ∃ b, bval o ρ a = some b ∧ bval o' ρ a = some b
  ref : ∀ a, 2 ≤ a → 0 < (o.k.nd a).ref → 0 < (o'.k.nd a).ref ∨
    ∃ j, 2 ≤ j ∧ j < a ∧ 0 < (o.k.nd j).ref ∧ 0 < (o'.k.nd j).ref ∧ Reach o'.k.nd (· = j) a
  mono : ∀ a, 2 ≤ a → 0 < (o'.k.nd a).ref →
    0 < (o.k.nd a).ref ∧ ((o.k.nd a).ref ≤ (o'.k.nd a).ref ∨ maxref ≤ (o'.k.nd a).ref)

theorem RKept.refl {P : Par} {o : KO} (h : OInv P o) : RKept o o where
  n := rfl
  lits := rfl
  val a h2 hr := by
    have hu : InUse o a := .inr (h.inv.rlive a h2 hr)
    obtain ⟨t, ht⟩ := h.rep hu
    exact ⟨hu, fun ρ => ⟨_, h.bval ht ρ, h.bval ht ρ⟩⟩
  ref a _ hr := .inl hr
  mono a _ hr := ⟨hr, .inl (Nat.le_refl _)⟩

theorem OKeep.kept {P : Par} {o o' : KO} (h : OInv P o) (h' : OInv P o') (hk : OKeep o o') : RKept o o' where
  n := hk.n
  lits := hk.vars
  val a h2 hr := by
    obtain ⟨t, ht⟩ := h.rep (.inr (h.inv.rlive a h2 hr))
    obtain ⟨t', a1, a2⟩ := hk.rep a t hr ht
    refine ⟨.inr ?_, fun ρ => ⟨_, h.bval ht ρ, by rw [h'.bval a1, a2]⟩⟩
    obtain ⟨lo, _, _, e, _⟩ := a1.ge2 h2
    rw [e]; exact Option.some_ne_none _
  ref a h2 hr := by
    rcases hk.ref a h2 hr with h | ⟨j, j1, j2, j3, j4, j5⟩
    · exact .inl h
    · exact .inr ⟨j, j1, j2, j4, j3, j5⟩
  mono := hk.mono

/-- the levels after a call -/
def RCall.levels (o o' : KO) : RCall → Prop
  | .moves _ => True
  | .swap x y => ∀ z, z < o.k.n → o'.v2l z = if z = x then o.v2l y else if z = y then o.v2l x else o.v2l z

theorem stepR_spec {P : Par} {Q : RPar} (hgr : ∀ s, s < P.grow s) {o : KO} {c : RCall}
    (hpos : ∀ t u v, o.k.n ≤ t → Q.pos t u v < Q.cells t) (h : OInv P o) (hc : c.ok o.k.n) :
    ∃ o', stepR P Q o c = some o' ∧ OInv P o' ∧ RKept o o' ∧ c.levels o o' := by
  have hp : ∀ t u v, o.k.size ≤ t → Q.pos t u v < Q.cells t := fun t u v ht => hpos t u v (Nat.le_trans h.size ht)
  cases c with
  | moves ms =>
    obtain ⟨o', a1, a2, a3⟩ := reorder_spec hgr hp h hc
    exact ⟨o', a1, a2, a3.kept h a2, trivial⟩
  | swap x y =>
    obtain ⟨o', a1, a2, a3, a4⟩ := swapVariables_spec hgr hp h hc.1 hc.2
    refine ⟨o', a1, a2, ?_, a4⟩
    rcases a3 with ⟨-, rfl⟩ | a3
    · exact .refl h
    · exact a3.kept h a2

theorem runR_spec {P : Par} {Q : RPar} (hgr : ∀ s, s < P.grow s) : ∀ (cs : List RCall) {o : KO},
    (∀ t u v, o.k.n ≤ t → Q.pos t u v < Q.cells t) → OInv P o → (∀ c ∈ cs, c.ok o.k.n) →
    ∃ o', runR P Q cs o = some o' ∧ OInv P o' ∧ o'.k.n = o.k.n ∧ o'.k.vars = o.k.vars
  | [], o, _, h, _ => ⟨o, rfl, h, rfl, rfl⟩
  | c :: cs, o, hpos, h, hc => by
    obtain ⟨o1, a1, a2, a3, -⟩ := stepR_spec hgr hpos h (hc c (by simp))
    obtain ⟨o2, b1, b2, b3, b4⟩ := runR_spec hgr cs (o := o1) (by rw [a3.n]; exact hpos) a2
      (fun c' h' => by rw [a3.n]; exact hc c' (by simp [h']))
    refine ⟨o2, ?_, b2, b3.trans a3.n, b4.trans a3.lits⟩
    unfold runR at b1 ⊢
    rw [List.foldlM_cons, a1]
    exact b1

/-! ### Theorems -/

/-- C53 (part): after every history of calls of a kernel, a call that reorders succeeds. Afterwards the two tables of the
order are inverse permutations, no two nodes represent the same function, every BDD that the kernel keeps for the caller has
the same root and the same function of the named variables, `SwapVariables` has exchanged the levels of the two variables
and nothing else. Missing: references of BDDs can be lost, see `C53_false`. -/
theorem C53_reorder_partial {P : Par} {Q : RPar} (hgr : ∀ s, s < P.grow s) (h : σ → Bool × σ) (nnf : Fm α → Fm α) (num sz : Nat)
    (hsz : 2 ≤ sz) (order : List α) (ops : List (Op α σ)) (hok : OpsOk nnf ops) {st : St α}
    (hrun : runNew P h nnf num sz order ops = some st) (hpos : ∀ t u v, num ≤ t → Q.pos t u v < Q.cells t)
    (c : RCall) (hc : c.ok num) :
    ∃ o', stepR P Q ⟨st.w.k, id, id⟩ c = some o' ∧ o'.k.n = num ∧ IsOrder o' ∧ Canonical o' ∧
      (∀ (i : Nat) (op : Op α σ) (a : Nat), ops[i]? = some op → op.kept = true → st.out[i]? = some (.bdd a) →
        ∀ v, bval o' (byName st.w.names v) a = some ((sems ops).getD i (fun _ => false) v)) ∧
      c.levels ⟨st.w.k, id, id⟩ o' := by
  rcases runNew_spec hgr h nnf num sz hsz order ops hok with ⟨h1, -⟩ | ⟨st', own, h1, h2, h3, -, -⟩
  · rw [h1] at hrun; cases hrun
  · rw [h1] at hrun
    injection hrun with hrun
    subst hrun
    have ho := h2.good.oinv
    obtain ⟨o', a1, a2, a3, a4⟩ := stepR_spec (Q := Q) (c := c) hgr (by show ∀ t u v, st'.w.k.n ≤ t → _; rw [h3]; exact hpos)
      ho (by show c.ok st'.w.k.n; rw [h3]; exact hc)
    refine ⟨o', a1, a3.n.trans h3, a2.order, a2.canonical, fun i op a i1 i2 i3 v => ?_, a4⟩
    obtain ⟨t, d1, d2⟩ := h2.den i op a i1 i3 (.inl i2)
    have hv : bval ⟨st'.w.k, id, id⟩ (byName st'.w.names v) a = some ((sems ops).getD i (fun _ => false) v) := by
      rw [ho.bval d1, d2 _ v]
      intro j x hx
      simp [byName, hx]
    by_cases ha : 2 ≤ a
    · have hr : 0 < (st'.w.k.nd a).ref := by
        have := h2.own i op a i1 i3 i2
        rcases (h2.good.own a ha).2 with e | e
        · rw [e]; decide
        · omega
      obtain ⟨b, b1, b2⟩ := (a3.val a ha hr).2 (byName st'.w.names v)
      rw [b2, ← b1, hv]
    · rw [← hv]
      obtain rfl | rfl : a = 0 ∨ a = 1 := by omega
      · rfl
      · rfl

/-- C53 (part): any number of reorderings after any history of calls succeed. Every single one of them keeps the values of
all BDDs that hold a reference at that moment, and takes no reference but from BDDs that are parts of others. The literals
of all variables keep their functions and references for ever. -/
theorem C53_sequence_partial {P : Par} {Q : RPar} (hgr : ∀ s, s < P.grow s) (h : σ → Bool × σ) (nnf : Fm α → Fm α) (num sz : Nat)
    (hsz : 2 ≤ sz) (order : List α) (ops : List (Op α σ)) (hok : OpsOk nnf ops) {st : St α}
    (hrun : runNew P h nnf num sz order ops = some st) (hpos : ∀ t u v, num ≤ t → Q.pos t u v < Q.cells t)
    (cs : List RCall) (c : RCall) (hcs : ∀ c ∈ cs, c.ok num) (hc : c.ok num) :
    ∃ o o', runR P Q cs ⟨st.w.k, id, id⟩ = some o ∧ stepR P Q o c = some o' ∧ IsOrder o' ∧ Canonical o' ∧ RKept o o' ∧
      c.levels o o' ∧
      ∀ x, x < num → ∃ p q, st.w.k.vars[x]? = some (p, q) ∧ 0 < (o'.k.nd p).ref ∧ 0 < (o'.k.nd q).ref ∧
        ∀ ρ, bval o' ρ p = some (ρ x) ∧ bval o' ρ q = some (!ρ x) := by
  rcases runNew_spec hgr h nnf num sz hsz order ops hok with ⟨h1, -⟩ | ⟨st', own, h1, h2, h3, -, -⟩
  · rw [h1] at hrun; cases hrun
  · rw [h1] at hrun
    injection hrun with hrun
    subst hrun
    have ho := h2.good.oinv
    obtain ⟨o, a1, a2, a3, a4⟩ := runR_spec (Q := Q) hgr cs (by show ∀ t u v, st'.w.k.n ≤ t → _; rw [h3]; exact hpos) ho
      (fun c hc => by show c.ok st'.w.k.n; rw [h3]; exact hcs c hc)
    have hn : o.k.n = num := a3.trans h3
    obtain ⟨o', b1, b2, b3, b4⟩ := stepR_spec (Q := Q) (c := c) hgr (by rw [hn]; exact hpos) a2 (by rw [hn]; exact hc)
    have hv : o'.k.vars = st'.w.k.vars := b3.lits.trans a4
    refine ⟨o, o', a1, b1, b2.order, b2.canonical, b3, b4, fun x hx => ?_⟩
    have hn' : o'.k.n = num := b3.n.trans hn
    obtain ⟨⟨p, q⟩, hp⟩ : ∃ pq, o'.k.vars[x]? = some pq := ⟨_, List.getElem?_eq_getElem (by rw [b2.vlen, hn']; exact hx)⟩
    obtain ⟨c1, c2, c3, c4⟩ := b2.vars x p q hp
    refine ⟨p, q, by rw [← hv]; exact hp, c1, c2, fun ρ => ?_⟩
    have e : o'.l2v (o'.v2l x) = x := (b2.tabs.lv x (by rw [hn']; exact hx)).2
    rw [b2.bval c3, b2.bval c4]
    simp only [T.var, T.eval, e]
    cases ρ x <;> exact ⟨rfl, rfl⟩

/-! ### Examples and counterexample -/

/-- reordering.go:156-158, 814-823: cells per variable are the largest prime number up to the size divided by the number of
variables (here up to 7), the cell of a node is the pair of its children modulo that number -/
def exQ (n : Nat) : RPar where
  pos t a b := pairN a b % (if t / n < 4 then t / n else if t / n < 5 then 3 else if t / n < 7 then 5 else 7)
  cells t := if t / n < 4 then t / n else if t / n < 5 then 3 else if t / n < 7 then 5 else 7

theorem exQ_pos {n : Nat} (hn : 0 < n) : ∀ t u v, n ≤ t → (exQ n).pos t u v < (exQ n).cells t := by
  intro t u v ht
  have : 1 ≤ t / n := (Nat.one_le_div_iff hn).2 ht
  exact Nat.mod_lt _ (by split; · omega
                         · split <;> [omega; (split <;> omega)])

/-- a history and calls that meet the hypotheses of the theorems -/
example : ∃ st, runNew (exPar 11) exH id 3 13 (List.range 3) [.compile (.or [.and [exP 0, exP 1], exN 2]) ()] = some st ∧
    ∃ o', stepR (exPar 11) (exQ 3) ⟨st.w.k, id, id⟩ (.swap 0 2) = some o' ∧ o'.v2l 0 = 2 ∧
    ∀ v, ∃ a, st.out[0]? = some (.bdd a) ∧ bval o' (byName st.w.names v) a = some ((v 0 && v 1) || !v 2) := by
  have hok : OpsOk (σ := Unit) id [.compile (.or [.and [exP 0, exP 1], exN 2]) ()] := by
    intro pre o post e
    cases pre with
    | nil =>
      obtain ⟨rfl, -⟩ := List.cons.inj e
      exact ⟨by simp [Op.args], by rintro φ s ⟨⟩; exact ⟨by simp, ⟨by simp, trivial, trivial, trivial⟩, trivial, trivial⟩⟩
    | cons _ pre => cases pre <;> simp at e
  have hs : (runNew (exPar 11) exH id 3 13 (List.range 3) [.compile (.or [.and [exP 0, exP 1], exN 2]) ()]).isSome = true := by
    decide +kernel
  obtain ⟨st, hst⟩ := Option.isSome_iff_exists.1 hs
  have hn : st.w.k.n = 3 := by
    rcases runNew_spec (exPar_grow 11) exH id 3 13 (by decide) (List.range 3) _ hok with ⟨h1, -⟩ | ⟨st', own, h1, h2, h3, -, -⟩
    · rw [h1] at hst; cases hst
    · rw [h1] at hst; cases hst; exact h3
  obtain ⟨o', a1, a2, a3, a4, a5, a6⟩ := C53_reorder_partial (exPar_grow 11) exH id 3 13 (by decide) (List.range 3) _ hok hst
    (exQ_pos (by decide)) (.swap 0 2) ⟨by decide, by decide⟩
  refine ⟨st, hst, o', a1, ?_, fun v => ?_⟩
  · have := a6 0 (by show 0 < st.w.k.n; omega)
    simpa using this
  · obtain ⟨a, ha⟩ := (runNew_some (fun _ => rfl) _ hok hst).2 0 _ rfl rfl
    refine ⟨a, ha, ?_⟩
    rw [a5 0 _ a rfl rfl ha]
    simp [sems, sem]
    simp [exP, exN, Fm.eval, Lit.eval]

/-- a kernel with names and order of variables -/
structure WO where
  w : W Nat
  l2v : Nat → Nat
  v2l : Nat → Nat

inductive OpO
  | compile (φ : Fm Nat)
  | swap (x y : Nat)

def stepO (P : Par) (Q : RPar) (o : WO) : OpO → Option (Option Nat × WO)
  | .compile φ => (compile P exH id φ o.w ()).map fun (r, w, _) => (r, { o with w := w })
  | .swap x y => (swapVariables P Q x y ⟨o.w.k, o.l2v, o.v2l⟩).map fun k => (none, ⟨{ o.w with k := k.k }, k.l2v, k.v2l⟩)

def runO (P : Par) (Q : RPar) : List OpO → WO → Option (List (Option Nat) × WO)
  | [], o => some ([], o)
  | x :: xs, o => do
    let (r, o1) ← stepO P Q o x
    let (rs, o2) ← runO P Q xs o1
    return (r :: rs, o2)

def exOpsO : List OpO := [
  .compile (.or [.and [exP 1, exP 2], .and [exP 1, exN 2]]),
  .compile (.or [exP 1, exP 2]), .swap 1 2, .compile (.and [exP 0, .or [exP 1, exP 2]]), .swap 1 2, .swap 0 1]

/-- the handles of the calls `exOpsO`, and the values of the node of the second call after `m` calls -/
def exValsO (m : Nat) : Option (List (Option Nat) × List (Option Bool)) := do
  let w ← newW (exPar 11) 3 13 (List.range 3)
  let (rs, o) ← runO (exPar 11) (exQ 3) (exOpsO.take m) ⟨w, id, id⟩
  return (rs, (List.range 8).map fun m => bval ⟨o.w.k, o.l2v, o.v2l⟩ (byName o.w.names fun x => m.testBit x) 10)

/-- C53 is false: a sequence of `Compile` and `SwapVariables` after which the node of a BDD of the caller is free. The
second call returns node 10 for `x1 | x2`; it has this function up to the fifth call; the fifth call takes its reference,
since it is part of the BDD of the fourth call, which has a smaller index; the sixth call frees it. -/
theorem C53_false :
    exValsO 2 = some ([some 4, some 10], [some false, some false, some true, some true, some true, some true, some true, some true]) ∧
    exValsO 5 = some ([some 4, some 10, none, some 8, none], [some false, some false, some true, some true, some true, some true, some true, some true]) ∧
    exValsO 6 = some ([some 4, some 10, none, some 8, none, none], [none, none, none, none, none, none, none, none]) := by
  decide +kernel

end Verif.Bdd
