import Verif.Bdd.ReadSpec
/-
C54: the functions that read a BDD: normal forms, formulas, enumeration of models, counts of nodes, order of variables.
-/
namespace Verif.Bdd
open Verif Verif.Tree
set_option linter.unusedSectionVars false
variable {α σ : Type} [DecidableEq α]

/-- the BDD of call `i` may be read in the table `o`: directly after the calls `ops`, if the kernel keeps it or it was just
returned; or after a reordering, if the kernel keeps it -/
inductive Reads (P : Par) (Q : RPar) (num : Nat) (ops : List (Op α σ)) (st : St α) (i : Nat) : KO → Prop
  | now : Live ops i → Reads P Q num ops st i ⟨st.w.k, id, id⟩
  | moved {c : RCall} {op : Op α σ} {o : KO} : c.ok num → stepR P Q ⟨st.w.k, id, id⟩ c = some o → ops[i]? = some op →
      op.kept = true → Reads P Q num ops st i o

theorem DenO.of_bval {P : Par} {o : KO} (h : OInv P o) {names : List α} {a : Nat} {g : (α → Bool) → Bool} (hu : InUse o a)
    (hb : ∀ (ρ : Nat → Bool) (v : α → Bool), (∀ (j : Nat) x, names[j]? = some x → ρ j = v x) → bval o ρ a = some (g v)) :
    DenO o names a g := by
  obtain ⟨t, ht⟩ := h.rep hu
  refine ⟨t, ht, fun ρ v hv => ?_⟩
  have := hb ρ v hv
  rw [h.bval ht] at this
  exact Option.some.inj this

theorem Reads.den {P : Par} {Q : RPar} (hgr : ∀ s, s < P.grow s) {h : σ → Bool × σ} {nnf : Fm α → Fm α} {num sz : Nat}
    (hsz : 2 ≤ sz) {order : List α} {ops : List (Op α σ)} (hok : OpsOk nnf ops) {st : St α}
    (hrun : runNew P h nnf num sz order ops = some st) (hpos : ∀ t u v, num ≤ t → Q.pos t u v < Q.cells t)
    {i a : Nat} {o : KO} (hr : Reads P Q num ops st i o) (ha : st.out[i]? = some (.bdd a)) :
    OInv P o ∧ st.w.names.Nodup ∧ st.w.names.length ≤ num ∧ o.k.n = num ∧ DenO o st.w.names a ((sems ops).getD i fun _ => false) := by
  rcases runNew_spec hgr h nnf num sz hsz order ops hok with ⟨h1, -⟩ | ⟨st', own, h1, h2, h3, -, -⟩
  · rw [h1] at hrun; cases hrun
  rw [h1] at hrun
  injection hrun with hrun
  subst hrun
  have ho := h2.good.oinv
  have hlen := h2.good.len
  rw [h3] at hlen
  cases hr with
  | now hl =>
    obtain ⟨op, i1, i2⟩ := hl
    obtain ⟨t, d1, d2⟩ := h2.den i op a i1 ha i2
    exact ⟨ho, h2.good.nd, hlen, h3, t, d1, d2⟩
  | @moved c op _ hc hs i1 i2 =>
    obtain ⟨o', a1, a2, a3, a4⟩ := stepR_spec (Q := Q) (c := c) hgr (by show ∀ t u v, st'.w.k.n ≤ t → _; rw [h3]; exact hpos)
      ho (by show c.ok st'.w.k.n; rw [h3]; exact hc)
    rw [hs] at a1
    injection a1 with a1
    subst a1
    refine ⟨a2, h2.good.nd, hlen, a3.n.trans h3, ?_⟩
    obtain ⟨t, d1, d2⟩ := h2.den i op a i1 ha (.inl i2)
    by_cases h2a : 2 ≤ a
    · have hr : 0 < (st'.w.k.nd a).ref := by
        have := h2.own i op a i1 ha i2
        rcases (h2.good.own a h2a).2 with e | e
        · rw [e]; decide
        · omega
      obtain ⟨hu, hv⟩ := a3.val a h2a hr
      refine .of_bval a2 hu fun ρ v hρ => ?_
      obtain ⟨b, b1, b2⟩ := hv ρ
      rw [b2, ← b1, ho.bval d1]
      exact congrArg some (d2 ρ v hρ)
    · have hl : a < 2 := by omega
      refine .of_bval a2 (.inl hl) fun ρ v hρ => ?_
      have hb : ∀ o : KO, bval o ρ a = some (decide (a = 1)) := fun o => by
        obtain rfl | rfl : a = 0 ∨ a = 1 := by omega
        · rfl
        · rfl
      have := ho.bval d1 ρ
      rw [hb] at this
      rw [hb, this]
      exact congrArg some (d2 ρ v hρ)

/-! ### Theorems -/

/-- C54: the CNF of a BDD is a CNF of its function, every assignment that falsifies the function falsifies exactly one
clause; the DNF of a BDD is a DNF of its function, every assignment that satisfies the function satisfies exactly one term.
After every history of calls, and after every reordering. -/
theorem C54_normalForms {P : Par} {Q : RPar} (hgr : ∀ s, s < P.grow s) (h : σ → Bool × σ) (nnf : Fm α → Fm α) (num sz : Nat)
    (hsz : 2 ≤ sz) (order : List α) (ops : List (Op α σ)) (hok : OpsOk nnf ops) {st : St α}
    (hrun : runNew P h nnf num sz order ops = some st) (hpos : ∀ t u v, num ≤ t → Q.pos t u v < Q.cells t)
    {i a : Nat} {o : KO} (hr : Reads P Q num ops st i o) (ha : st.out[i]? = some (.bdd a)) (cons : Bool) :
    (∃ (φ : Fm α) (cs : List (List (Lit α))), bddNF cons o st.w.names true a = some φ ∧ φ = tAnd cons (cs.map tClause) ∧ Spec.isCNF φ = true ∧
      (∀ v, φ.eval v = (sems ops).getD i (fun _ => false) v) ∧
      (∀ v, (sems ops).getD i (fun _ => false) v = false → (cs.filter fun c => c.all fun l => !l.eval v).length = 1) ∧
      ∀ c ∈ cs, ∀ l ∈ c, l.var ∈ st.w.names) ∧
    ∃ (φ : Fm α) (ts : List (List (Lit α))), bddNF cons o st.w.names false a = some φ ∧ φ = tOr cons (ts.map tMinterm) ∧ Spec.isDNF φ = true ∧
      (∀ v, φ.eval v = (sems ops).getD i (fun _ => false) v) ∧
      (∀ v, (sems ops).getD i (fun _ => false) v = true → (ts.filter fun c => c.all fun l => l.eval v).length = 1) ∧
      ∀ c ∈ ts, ∀ l ∈ c, l.var ∈ st.w.names := by
  obtain ⟨ho, hnd, hlen, hn, hd⟩ := hr.den hgr hsz hok hrun hpos ha
  rw [← hn] at hlen
  constructor
  · obtain ⟨cs, c1, c2, c3⟩ := bddNF_spec ho cons true hnd hlen hd
    refine ⟨_, cs, c1, rfl, ?_, fun v => ?_, fun v hv => ?_, c2⟩
    · refine NF.isCNF_tAnd fun f hf => ?_
      obtain ⟨c, -, rfl⟩ := List.mem_map.1 hf
      unfold tClause
      split
      · rfl
      · rfl
      · simp [Spec.isCNF, Spec.isClause, Spec.isLit]
    · have := c3 v
      rw [Bool.eq_iff_iff]
      simp only [if_true, eval_tAnd, List.all_map, List.all_eq_true, Function.comp, eval_tClause]
      constructor
      · intro hc
        by_contra hg
        rw [if_neg hg] at this
        obtain ⟨c, hc1, hc2⟩ := List.countP_pos_iff.1 (Nat.lt_of_lt_of_eq Nat.zero_lt_one this.symm)
        have := hc c hc1
        rw [List.any_eq_true] at this
        obtain ⟨l, hl, hl'⟩ := this
        have := List.all_eq_true.1 hc2 l hl
        simp [hl'] at this
      · intro hg c hc
        rw [if_pos hg, List.countP_eq_zero] at this
        have := this c hc
        rw [List.any_eq_true]
        simpa using this
    · have := c3 v
      rw [if_neg (by simp [hv]), List.countP_eq_length_filter] at this
      rw [← this]
      congr 2
      funext c
      congr 1
      funext l
      cases l.eval v <;> rfl
  · obtain ⟨cs, c1, c2, c3⟩ := bddNF_spec ho cons false hnd hlen hd
    refine ⟨_, cs, c1, rfl, Simpl.dnf_shape _, fun v => ?_, fun v hv => ?_, c2⟩
    · have := c3 v
      rw [Bool.eq_iff_iff]
      simp only [Bool.false_eq_true, if_false, eval_tOr, List.any_map, List.any_eq_true, Function.comp, eval_tMinterm]
      constructor
      · rintro ⟨c, hc1, hc2⟩
        by_contra hg
        rw [if_pos (by simpa using hg), List.countP_eq_zero] at this
        exact this c hc1 (by simpa using hc2)
      · intro hg
        rw [if_neg (by simp [hg])] at this
        obtain ⟨c, hc1, hc2⟩ := List.countP_pos_iff.1 (Nat.lt_of_lt_of_eq Nat.zero_lt_one this.symm)
        exact ⟨c, hc1, by simpa using hc2⟩
    · have := c3 v
      rw [if_neg (by simp [hv]), List.countP_eq_length_filter] at this
      rw [← this]
      congr 2
      funext c
      congr 1
      funext l
      cases l.eval v <;> rfl

/-- C54: the formula of a BDD is equivalent to its function, whatever flags are given -/
theorem C54_formula {P : Par} {Q : RPar} (hgr : ∀ s, s < P.grow s) (h : σ → Bool × σ) (nnf : Fm α → Fm α) (num sz : Nat)
    (hsz : 2 ≤ sz) (order : List α) (ops : List (Op α σ)) (hok : OpsOk nnf ops) {st : St α}
    (hrun : runNew P h nnf num sz order ops = some st) (hpos : ∀ t u v, num ≤ t → Q.pos t u v < Q.cells t)
    {i a : Nat} {o : KO} (hr : Reads P Q num ops st i o) (ha : st.out[i]? = some (.bdd a)) (cons : Bool) (flags : List Bool) :
    ∃ φ, bToFormula cons o st.w.names flags a = some φ ∧ ∀ v, φ.eval v = (sems ops).getD i (fun _ => false) v := by
  obtain ⟨ho, hnd, hlen, hn, hd⟩ := hr.den hgr hsz hok hrun hpos ha
  exact toFormula_spec ho cons _ hnd (by rw [hn]; exact hlen) hd

/-- C54: the enumeration returns each projection of a model to the given variables that the kernel knows, and each once -/
theorem C54_enumeration {P : Par} {Q : RPar} (hgr : ∀ s, s < P.grow s) (h : σ → Bool × σ) (nnf : Fm α → Fm α) (num sz : Nat)
    (hsz : 2 ≤ sz) (order : List α) (ops : List (Op α σ)) (hok : OpsOk nnf ops) {st : St α}
    (hrun : runNew P h nnf num sz order ops = some st) (hpos : ∀ t u v, num ≤ t → Q.pos t u v < Q.cells t)
    {i a : Nat} {o : KO} (hr : Reads P Q num ops st i o) (ha : st.out[i]? = some (.bdd a)) (xs : List α) :
    ∃ ms, modelEnum o st.w.names a xs = some ms ∧ ms.Nodup ∧
      ∀ m, m ∈ ms ↔ ∃ v, (sems ops).getD i (fun _ => false) v = true ∧ m = (xs.filter (· ∈ st.w.names)).map fun x => ⟨x, v x⟩ := by
  obtain ⟨ho, hnd, hlen, hn, hd⟩ := hr.den hgr hsz hok hrun hpos ha
  exact modelEnum_spec ho hnd (by rw [hn]; exact hlen) hd xs

/-- C54: the node count is the number of inner nodes that can be reached from the root, the profile is their number for each
variable -/
theorem C54_counts {P : Par} {Q : RPar} (hgr : ∀ s, s < P.grow s) (h : σ → Bool × σ) (nnf : Fm α → Fm α) (num sz : Nat)
    (hsz : 2 ≤ sz) (order : List α) (ops : List (Op α σ)) (hok : OpsOk nnf ops) {st : St α}
    (hrun : runNew P h nnf num sz order ops = some st) (hpos : ∀ t u v, num ≤ t → Q.pos t u v < Q.cells t)
    {i a : Nat} {o : KO} (hr : Reads P Q num ops st i o) (ha : st.out[i]? = some (.bdd a)) :
    ∃ L : List Nat, L.Nodup ∧ (∀ j, j ∈ L ↔ 2 ≤ j ∧ Reach o.k.nd (· = a) j) ∧ nodeCount o a = L.length ∧
      ∀ x, varProfile o a x = (L.filter fun j => o.l2v (o.k.nd j).lvl = x).length := by
  obtain ⟨ho, -, -, -, t, ht, -⟩ := hr.den hgr hsz hok hrun hpos ha
  exact counts_spec ho ht

/-- C54: the order of variables. If all variables of the kernel have names, it lists each of them once; in a kernel without
reorderings it is the order of the names; `SwapVariables` exchanges two of its entries. -/
theorem C54_order {P : Par} {Q : RPar} (hgr : ∀ s, s < P.grow s) (h : σ → Bool × σ) (nnf : Fm α → Fm α) (num sz : Nat)
    (hsz : 2 ≤ sz) (order : List α) (ops : List (Op α σ)) (hok : OpsOk nnf ops) {st : St α}
    (hrun : runNew P h nnf num sz order ops = some st) (hpos : ∀ t u v, num ≤ t → Q.pos t u v < Q.cells t)
    (hfull : st.w.names.length = num) (c : RCall) (hc : c.ok num) :
    variableOrder ⟨st.w.k, id, id⟩ st.w.names = st.w.names.map some ∧
    ∃ o, stepR P Q ⟨st.w.k, id, id⟩ c = some o ∧ (variableOrder o st.w.names).Perm (st.w.names.map some) ∧
      ∀ x y, c = .swap x y → ∀ l, l < num → (variableOrder o st.w.names)[l]? =
        (st.w.names.map some)[if l = x then y else if l = y then x else l]? := by
  rcases runNew_spec hgr h nnf num sz hsz order ops hok with ⟨h1, -⟩ | ⟨st', own, h1, h2, h3, -, -⟩
  · rw [h1] at hrun; cases hrun
  rw [h1] at hrun
  injection hrun with hrun
  subst hrun
  have ho := h2.good.oinv
  have hmap : ∀ f : Nat → Nat, (List.range num).map (fun l => st'.w.names[f l]?) =
      ((List.range num).map f).map fun j => st'.w.names[j]? := fun f => by simp
  have hid : (List.range num).map (fun j => st'.w.names[j]?) = st'.w.names.map some := by
    subst hfull
    refine List.ext_getElem (by simp) fun j _ _ => ?_
    simp
  obtain ⟨o, a1, a2, a3, a4⟩ := stepR_spec (Q := Q) (c := c) hgr (by show ∀ t u v, st'.w.k.n ≤ t → _; rw [h3]; exact hpos)
    ho (by show c.ok st'.w.k.n; rw [h3]; exact hc)
  have hn : o.k.n = num := a3.n.trans h3
  refine ⟨?_, o, a1, ?_, ?_⟩
  · show (List.range st'.w.k.n).map _ = _
    rw [h3]; exact hid
  · unfold variableOrder
    rw [hn, hmap, ← hid]
    refine List.Perm.map _ ((List.perm_ext_iff_of_nodup (List.Nodup.map_on (fun x hx y hy e => ?_) List.nodup_range) List.nodup_range).2
      fun j => ?_)
    · rw [← (a2.tabs.vl x (by rw [hn]; exact List.mem_range.1 hx)).2, ← (a2.tabs.vl y (by rw [hn]; exact List.mem_range.1 hy)).2, e]
    · constructor
      · intro hj
        obtain ⟨l, hl, rfl⟩ := List.mem_map.1 hj
        have := (a2.tabs.vl l (by rw [hn]; exact List.mem_range.1 hl)).1
        exact List.mem_range.2 (by rw [← hn]; exact this)
      · intro hj
        have := a2.tabs.lv j (by rw [hn]; exact List.mem_range.1 hj)
        exact List.mem_map.2 ⟨o.v2l j, List.mem_range.2 (by rw [← hn]; exact this.1), this.2⟩
  · rintro x y rfl l hl
    obtain ⟨hx, hy⟩ : x < num ∧ y < num := hc
    have hsw : o.l2v l = if l = x then y else if l = y then x else l := by
      have h4 : ∀ z, z < num → o.v2l z = if z = x then y else if z = y then x else z := fun z hz => a4 z (by rw [h3]; exact hz)
      have key : ∀ z, z < num → o.v2l z = l → o.l2v l = z := fun z hz e => by
        rw [← e]; exact (a2.tabs.lv z (by rw [hn]; exact hz)).2
      split
      · next e =>
        refine key y hy ?_
        rw [h4 y hy]
        by_cases e' : y = x
        · rw [if_pos e']; omega
        · rw [if_neg e', if_pos rfl]; omega
      · next e =>
        split
        · next e' => exact key x hx (by rw [h4 x hx, if_pos rfl]; omega)
        · next e' => exact key l hl (by rw [h4 l hl, if_neg e, if_neg e'])
    unfold variableOrder
    rw [List.getElem?_map, List.getElem?_range (by omega), Option.map_some, hsw, List.getElem?_map]
    generalize hz : (if l = x then y else if l = y then x else l) = z
    have hz' : z < num := by rw [← hz]; split <;> [exact hy; (split <;> [exact hx; exact hl])]
    rw [List.getElem?_eq_getElem (by omega : z < st'.w.names.length)]
    rfl

/-! ### Examples -/

/-- `(x0 ∧ x1) ∨ ¬x2` -/
def exF : Fm Nat := .or [.and [exP 0, exP 1], exN 2]

theorem exF_ok : OpsOk (σ := Unit) id [.compile exF ()] := by
  intro pre o post e
  cases pre with
  | nil =>
    obtain ⟨rfl, -⟩ := List.cons.inj e
    exact ⟨by simp [Op.args], by rintro φ s ⟨⟩; exact ⟨by simp, ⟨by simp, trivial, trivial, trivial⟩, trivial, trivial⟩⟩
  | cons _ pre => cases pre <;> simp at e

/-- a kernel with room for a fourth variable; the BDD may be read before and after the exchange of the variables 0 and 2 -/
example : ∃ st, runNew (exPar 11) exH id 4 13 (List.range 3) [.compile exF ()] = some st ∧
    Reads (exPar 11) (exQ 4) 4 [.compile exF ()] st 0 ⟨st.w.k, id, id⟩ ∧
    ∃ o, Reads (exPar 11) (exQ 4) 4 [.compile exF ()] st 0 o ∧ o.v2l 0 = 2 := by
  have hs : (runNew (exPar 11) exH id 4 13 (List.range 3) [.compile exF ()]).isSome = true := by decide +kernel
  obtain ⟨st, hst⟩ := Option.isSome_iff_exists.1 hs
  obtain ⟨o, a1, -, -, -, -, a6⟩ := C53_reorder_partial (exPar_grow 11) exH id 4 13 (by decide) (List.range 3) _ exF_ok hst
    (exQ_pos (by decide)) (.swap 0 2) ⟨by decide, by decide⟩
  have hn : st.w.k.n = 4 := by
    rcases runNew_spec (exPar_grow 11) exH id 4 13 (by decide) (List.range 3) _ exF_ok with ⟨h1, -⟩ | ⟨st', own, h1, h2, h3, -, -⟩
    · rw [h1] at hst; cases hst
    · rw [h1] at hst; cases hst; exact h3
  refine ⟨st, hst, .now ⟨_, rfl, .inl rfl⟩, o, .moved (c := .swap 0 2) ⟨by decide, by decide⟩ a1 rfl rfl, ?_⟩
  have := a6 0 (by show 0 < st.w.k.n; omega)
  simpa using this

/-- what is read after the exchange of the variables 0 and 2 -/
def exRead : Option (Option (Fm Nat) × Option (Fm Nat) × Option (List (List (Lit Nat))) × Nat × List (Option Nat)) := do
  let st : St Nat ← runNew (exPar 11) exH id 4 13 (List.range 3) [.compile exF ()]
  let o ← stepR (exPar 11) (exQ 4) ⟨st.w.k, id, id⟩ (.swap 0 2)
  match (st.out[0]? : Option Out) with
  | some (.bdd a) => some (bddNF false o st.w.names true a, bddNF false o st.w.names false a, modelEnum o st.w.names a [1, 7, 0],
      nodeCount o a, variableOrder o st.w.names)
  | _ => none

example : exRead.map (·.1) = some (some (.and [.or [exP 1, exN 2], .or [exP 0, exN 1, exN 2]])) := by decide +kernel
example : exRead.map (·.2.1) = some (some (.or [exN 2, .and [exP 0, exP 1, exP 2]])) := by decide +kernel
example : exRead.map (·.2.2) = some (
    some [[⟨1, false⟩, ⟨0, false⟩], [⟨1, false⟩, ⟨0, true⟩], [⟨1, true⟩, ⟨0, false⟩], [⟨1, true⟩, ⟨0, true⟩]],
    3, [some 2, some 1, some 0, none]) := by decide +kernel

end Verif.Bdd
