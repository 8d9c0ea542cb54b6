import Verif.Bdd.PickSpec
import Verif.Bdd.ReadProps
/-
C55: the functions that pick a model of a BDD, and the support.
-/
namespace Verif.Bdd
open Verif Verif.Tree
set_option linter.unusedSectionVars false
variable {α σ : Type} [DecidableEq α]

/-- the function depends on the variable -/
def Dep (g : (α → Bool) → Bool) (y : α) : Prop := ∃ v w : α → Bool, (∀ z, z ≠ y → v z = w z) ∧ g v ≠ g w

/-- a literal of a variable with a name -/
def lift (l : Lit α) : Lit (Option α) := ⟨some l.var, l.pos⟩

/-- the BDDs that the kernel `o` keeps have the same function in the kernel `o'` -/
def KeptIn (ops : List (Op α σ)) (st : St α) (o' : KO) (names : List α) : Prop :=
  ∀ (j : Nat) (op : Op α σ) (b : Nat), ops[j]? = some op → op.kept = true → st.out[j]? = some (.bdd b) →
    ∀ v, bval o' (byName names v) b = some ((sems ops).getD j (fun _ => false) v)

/-! ### Lemmas -/

theorem chain_eval : ∀ (L : List (Nat × Bool)) (ρ : Nat → Bool), (chain L).eval ρ = L.all fun p => ρ p.1 == p.2
  | [], _ => rfl
  | (l, true) :: L, ρ => by
    simp only [chain, T.eval, chain_eval L, List.all_cons]
    cases ρ l <;> simp
  | (l, false) :: L, ρ => by
    simp only [chain, T.eval, chain_eval L, List.all_cons]
    cases ρ l <;> simp

/-- the literals with a name of a model -/
def unlift (l : Lit (Option α)) : Option (Lit α) := l.var.map fun x => ⟨x, l.pos⟩

theorem lits_spec {P : Par} {o : KO} (h : OInv P o) {names : List α} (hnd : names.Nodup) {L : List (Nat × Bool)} (hL : Inc o.k.n 0 L)
    {m' : List (Lit (Option α))} (hm : m'.Perm (L.map (levLit o names))) :
    ((m'.filterMap unlift).map (·.var)).Nodup ∧
    ∀ x b, (⟨x, b⟩ : Lit α) ∈ m'.filterMap unlift ↔ ∃ l, (l, b) ∈ L ∧ names[o.l2v l]? = some x := by
  constructor
  · have hp : ((m'.filterMap unlift).map (·.var)).Perm ((L.map (·.1)).filterMap fun l => names[o.l2v l]?) := by
      have e : ∀ q : List (Lit (Option α)), (q.filterMap unlift).map (·.var) = q.filterMap (·.var) := fun q => by
        rw [List.map_filterMap]
        congr 1
        funext l
        unfold unlift
        cases l.var <;> rfl
      rw [e]
      refine (hm.filterMap _).trans (.of_eq ?_)
      rw [List.filterMap_map, List.filterMap_map]
      rfl
    rw [hp.nodup_iff]
    unfold List.Nodup
    rw [List.pairwise_filterMap]
    refine List.Pairwise.imp_of_mem (fun {a a'} ha ha' hne b hb b' hb' e => ?_) hL.nodup
    subst e
    obtain ⟨p, hp, rfl⟩ := List.mem_map.1 ha
    obtain ⟨p', hp', rfl⟩ := List.mem_map.1 ha'
    obtain ⟨i1, i2⟩ := List.getElem?_eq_some_iff.1 hb
    obtain ⟨j1, j2⟩ := List.getElem?_eq_some_iff.1 hb'
    exact hne (h.inj _ _ (hL.bounds p hp).2 (hL.bounds p' hp').2 (hnd.getElem_inj_iff.1 (i2.trans j2.symm)))
  · intro x b
    rw [List.mem_filterMap]
    constructor
    · rintro ⟨l', hl, e⟩
      obtain ⟨p, hp, rfl⟩ := List.mem_map.1 (hm.mem_iff.1 hl)
      unfold unlift levLit at e
      simp only at e
      cases hx : names[o.l2v p.1]? with
      | none => rw [hx] at e; cases e
      | some y =>
        rw [hx] at e
        simp only [Option.map_some, Option.some.injEq, Lit.mk.injEq] at e
        obtain ⟨rfl, rfl⟩ := e
        exact ⟨p.1, hp, hx⟩
    · rintro ⟨l, hl, hx⟩
      refine ⟨levLit o names (l, b), hm.mem_iff.2 (List.mem_map_of_mem hl), ?_⟩
      unfold unlift levLit
      simp [hx]

theorem unlift_all : ∀ {m : List (Lit (Option α))}, (∀ l ∈ m, ∃ x, l.var = some x) → m = (m.filterMap unlift).map lift
  | [], _ => rfl
  | l :: m, h => by
    obtain ⟨x, hx⟩ := h l (by simp)
    have ih := unlift_all (m := m) fun l hl => h l (by simp [hl])
    have : unlift l = some ⟨x, l.pos⟩ := by unfold unlift; rw [hx]; rfl
    rw [List.filterMap_cons, this, List.map_cons, ← ih]
    congr 1
    obtain ⟨a, b⟩ := l
    simp only at hx
    subst hx
    rfl

/-- the levels of a BDD are the variables on which the function depends -/
theorem dep_iff {P : Par} {o : KO} (h : OInv P o) {names : List α} (hnd : names.Nodup) (hlen : names.length ≤ o.k.n)
    {g : (α → Bool) → Bool} {a : Nat} {t : T}
    (hr : Rep o.k.nd a t) (hg : ∀ (ρ : Nat → Bool) (v : α → Bool), (∀ (j : Nat) x, names[j]? = some x → ρ j = v x) →
      (t.eval fun l => ρ (o.l2v l)) = g v) (y : α) : Dep g y ↔ ∃ l ∈ t.levels, names[o.l2v l]? = some y := by
  have ho := h.inv.ord hr
  constructor
  · rintro ⟨v, w, hvw, hne⟩
    have gv := hg _ v (byName_ok names v)
    have gw := hg _ w (byName_ok names w)
    by_cases hy : y ∈ names
    · obtain ⟨j, hj, rfl⟩ := List.getElem_of_mem hy
      have hjn : j < o.k.n := by omega
      obtain ⟨l1, l2⟩ := h.tabs.lv j hjn
      refine ⟨o.v2l j, ?_, by rw [l2]; exact List.getElem?_eq_getElem hj⟩
      by_contra hl
      refine hne ?_
      rw [← gv, ← gw, ← T.indep hl (fun l => byName names v (o.l2v l)) (byName names w j)]
      refine ho.agree fun l _ hln => ?_
      unfold setv
      split
      · next e => rw [e, l2]
      · next e =>
        show byName names v (o.l2v l) = byName names w (o.l2v l)
        unfold byName
        cases hx : names[o.l2v l]? with
        | none => rfl
        | some x =>
          simp only [Option.map_some, Option.getD_some]
          refine hvw x fun ex => e ?_
          obtain ⟨q1, q2⟩ := List.getElem?_eq_some_iff.1 hx
          have := hnd.getElem_inj_iff.1 (q2.trans ex)
          rw [← this, (h.tabs.vl l hln).2]
    · refine absurd ?_ hne
      rw [← gv, ← gw]
      congr 1
      funext l
      unfold byName
      cases hx : names[o.l2v l]? with
      | none => rfl
      | some x =>
        simp only [Option.map_some, Option.getD_some]
        refine hvw x fun ex => hy ?_
        rw [← ex]
        exact List.mem_of_getElem? hx
  · rintro ⟨l, hl, hy⟩
    have hln := (ho.levels l hl).2
    obtain ⟨ρ, hρ⟩ := ho.dep l hl
    obtain ⟨v, hv⟩ := ofPos hnd fun x => ρ (o.v2l x)
    have key : ∀ b, t.eval (setv ρ l b) = g (fun z => if z = y then b else v z) := fun b => by
      rw [← hg (fun x => setv ρ l b (o.v2l x)) _]
      · refine ho.agree fun w _ hw => ?_
        rw [(h.tabs.vl w hw).2]
      · intro j x hx
        have hj : j < o.k.n := Nat.lt_of_lt_of_le (List.getElem?_eq_some_iff.1 hx).1 hlen
        show (if o.v2l j = l then b else ρ (o.v2l j)) = if x = y then b else v x
        have : o.v2l j = l ↔ x = y := by
          constructor
          · intro e
            have he := (h.tabs.lv j hj).2
            rw [e] at he
            rw [← he, hy] at hx
            exact (Option.some.inj hx).symm
          · rintro rfl
            obtain ⟨q1, q2⟩ := List.getElem?_eq_some_iff.1 hx
            obtain ⟨r1, r2⟩ := List.getElem?_eq_some_iff.1 hy
            have := hnd.getElem_inj_iff.1 (q2.trans r2.symm)
            rw [this, (h.tabs.vl l hln).2]
        simp only [this, hv j x hx]
    refine ⟨_, _, fun z hz => ?_, fun e => hρ ((key false).trans (e.trans (key true).symm))⟩
    simp [hz]

/-- a term that implies the tree gives literals that imply the function -/
theorem imp_lits {o : KO} {names : List α} {g : (α → Bool) → Bool} {t : T}
    (hg : ∀ (ρ : Nat → Bool) (v : α → Bool), (∀ (j : Nat) x, names[j]? = some x → ρ j = v x) →
      (t.eval fun l => ρ (o.l2v l)) = g v) {L : List (Nat × Bool)} (hi : Imp L t) {m : List (Lit α)}
    (hm : ∀ x b, (⟨x, b⟩ : Lit α) ∈ m ↔ ∃ l, (l, b) ∈ L ∧ names[o.l2v l]? = some x)
    (hu : ∀ p ∈ L, names[o.l2v p.1]? = none → p.2 = false) (v : α → Bool) (hv : ∀ l ∈ m, l.eval v = true) : g v = true := by
  rw [← hg _ v (byName_ok names v)]
  refine hi _ fun p hp => ?_
  cases hx : names[o.l2v p.1]? with
  | none => rw [hu p hp hx]; simp [byName, hx]
  | some x =>
    have := hv _ ((hm x p.2).2 ⟨p.1, hp, hx⟩)
    simp only [byName, hx, Option.map_some, Option.getD_some]
    simp only [Lit.eval] at this
    cases hb : p.2 <;> rw [hb] at this <;> simpa using this

theorem taut_iff {P : Par} {o : KO} (h : OInv P o) {names : List α} (hnd : names.Nodup)
    {g : (α → Bool) → Bool} {a : Nat} {t : T}
    (hr : Rep o.k.nd a t) (hg : ∀ (ρ : Nat → Bool) (v : α → Bool), (∀ (j : Nat) x, names[j]? = some x → ρ j = v x) →
      (t.eval fun l => ρ (o.l2v l)) = g v) (hf : ∀ v, g v = false) : t = .leaf false := by
  refine (h.inv.ord hr).canon _ _ (m' := 0) trivial fun ρ => ?_
  obtain ⟨v, hv⟩ := ofPos hnd fun x => ρ (o.v2l x)
  show t.eval ρ = false
  rw [← hf v, ← hg _ v hv]
  exact (h.inv.ord hr).agree fun l _ hl => by rw [(h.tabs.vl l hl).2]

/-- a BDD that the kernel keeps: its function, and the kernel does not free it -/
theorem Reads.prot {P : Par} {Q : RPar} (hgr : ∀ s, s < P.grow s) {h : σ → Bool × σ} {nnf : Fm α → Fm α} {num sz : Nat}
    (hsz : 2 ≤ sz) {order : List α} {ops : List (Op α σ)} (hok : OpsOk nnf ops) {st : St α}
    (hrun : runNew P h nnf num sz order ops = some st) (hpos : ∀ t u v, num ≤ t → Q.pos t u v < Q.cells t)
    {i a : Nat} {o : KO} (hr : Reads P Q num ops st i o) (ha : st.out[i]? = some (.bdd a)) {op : Op α σ} (hop : ops[i]? = some op)
    (hk : op.kept = true) : HP o.k a := by
  rcases runNew_spec hgr h nnf num sz hsz order ops hok with ⟨h1, -⟩ | ⟨st', own, h1, h2, h3, -, -⟩
  · rw [h1] at hrun; cases hrun
  rw [h1] at hrun
  injection hrun with hrun
  subst hrun
  by_cases h2a : 2 ≤ a
  · have hrf : 0 < (st'.w.k.nd a).ref := by
      have := h2.own i op a hop ha hk
      rcases (h2.good.own a h2a).2 with e | e
      · rw [e]; decide
      · omega
    cases hr with
    | now _ => exact .inr (.root (.inr hrf))
    | @moved c op _ hc hs i1 i2 =>
      obtain ⟨o', a1, a2, a3, a4⟩ := stepR_spec (Q := Q) (c := c) hgr (by show ∀ t u v, st'.w.k.n ≤ t → _; rw [h3]; exact hpos)
        h2.good.oinv (by show c.ok st'.w.k.n; rw [h3]; exact hc)
      rw [hs] at a1
      injection a1 with a1
      subst a1
      rcases a3.ref a h2a hrf with hx | ⟨j, j1, j2, j3, j4, j5⟩
      · exact .inr (.root (.inr hx))
      · refine .inr (Reach.mono ?_ j5)
        rintro _ rfl
        exact .inr j4
  · exact .inl (by omega)

theorem Reads.other {P : Par} {Q : RPar} {num : Nat} {ops : List (Op α σ)} {st : St α} {i j : Nat} {o : KO} (hr : Reads P Q num ops st i o)
    {op : Op α σ} (hop : ops[j]? = some op) (hk : op.kept = true) : Reads P Q num ops st j o := by
  cases hr with
  | now _ => exact .now ⟨op, hop, .inl hk⟩
  | moved hc hs _ _ => exact .moved hc hs hop hk

theorem Reads.keptIn {P : Par} {Q : RPar} (hgr : ∀ s, s < P.grow s) {h : σ → Bool × σ} {nnf : Fm α → Fm α} {num sz : Nat}
    (hsz : 2 ≤ sz) {order : List α} {ops : List (Op α σ)} (hok : OpsOk nnf ops) {st : St α}
    (hrun : runNew P h nnf num sz order ops = some st) (hpos : ∀ t u v, num ≤ t → Q.pos t u v < Q.cells t)
    {i : Nat} {o : KO} (hr : Reads P Q num ops st i o) {k' : K} (hi : Inv P k') (hg : Grow (initRef o.k) k') :
    KeptIn ops st { o with k := k' } st.w.names := by
  intro j op b hop hk hb v
  have hj := hr.other hop hk
  obtain ⟨ho, -, -, -, t, ht, e⟩ := hj.den hgr hsz hok hrun hpos hb
  have ht' : Rep k'.nd b t := hg.rep (hj.prot hgr hsz hok hrun hpos hb hop hk) ht
  show walkL k'.nd _ (k'.n + 1) b = _
  rw [walkL_rep ht' (hi.ord ht') (Nat.zero_le _) (by omega)]
  exact congrArg some (e _ v (byName_ok _ v))

/-! ### Theorems -/

/-- C55: `Model`. A BDD without models gives an error. Otherwise the result has each variable once, only variables on which
the function depends, and every assignment that agrees with it satisfies the function. The BDDs that the kernel keeps keep
their functions. -/
theorem C55_model {P : Par} {Q : RPar} (hgr : ∀ s, s < P.grow s) (h : σ → Bool × σ) (nnf : Fm α → Fm α) (num sz : Nat)
    (hsz : 2 ≤ sz) (order : List α) (ops : List (Op α σ)) (hok : OpsOk nnf ops) {st : St α}
    (hrun : runNew P h nnf num sz order ops = some st) (hpos : ∀ t u v, num ≤ t → Q.pos t u v < Q.cells t)
    {i a : Nat} {o : KO} (hr : Reads P Q num ops st i o) (ha : st.out[i]? = some (.bdd a)) {op : Op α σ} (hop : ops[i]? = some op)
    (hk : op.kept = true) :
    ((∀ v, (sems ops).getD i (fun _ => false) v = false) → bModel P o st.w.names a = some (none, o.k)) ∧
    ((∃ v, (sems ops).getD i (fun _ => false) v = true) → ∃ (m : List (Lit α)) (k' : K),
      bModel P o st.w.names a = some (some (m.map lift), k') ∧ (m.map (·.var)).Nodup ∧
      (∀ l ∈ m, Dep ((sems ops).getD i fun _ => false) l.var) ∧
      (∀ v, (∀ l ∈ m, l.eval v = true) → (sems ops).getD i (fun _ => false) v = true) ∧
      KeptIn ops st { o with k := k' } st.w.names) := by
  obtain ⟨ho, hnd, hlen, hn, t, ht, hg⟩ := hr.den hgr hsz hok hrun hpos ha
  rw [← hn] at hlen
  have hp := hr.prot hgr hsz hok hrun hpos ha hop hk
  refine ⟨fun hf => ?_, fun ⟨v0, hv0⟩ => ?_⟩
  · have := taut_iff ho hnd ht hg hf
    subst this
    have : a = 0 := ht.leaf_idx
    subst this
    rfl
  · have hne : t ≠ .leaf false := by
      rintro rfl
      have := hg _ v0 (byName_ok _ v0)
      rw [hv0] at this
      cases this
    obtain ⟨x, k', L, a1, a2, a3, a4⟩ := satOneRec_spec hgr (f := o.k.n + 1) (m := 0) ho.inv.init ht (ho.inv.ord ht) hne hp
      (Nat.zero_le _) (by show o.k.n - 0 < _; omega) (by show 0 + (o.k.n - 0) < 2 * o.k.n + 4; omega)
    have hs : satOne P o.k a = some (x, k') ∨ (satOne P o.k a = some (1, o.k) ∧ x = 1 ∧ k' = initRef o.k) := by
      unfold satOne
      by_cases hlt : a < 2
      · rw [if_pos hlt]
        have : t = .leaf true := by
          have := ht.lt2 hlt
          rcases (by omega : a = 0 ∨ a = 1) with rfl | rfl
          · exact absurd this hne
          · exact this
        subst this
        have : a = 1 := by simpa using ht.leaf_idx
        subst this
        unfold satOneRec at a1
        rw [if_pos (by omega)] at a1
        simp only [Option.some.injEq, Prod.mk.injEq] at a1
        exact .inr ⟨rfl, a1.1.symm, a1.2.symm⟩
      · rw [if_neg hlt]; exact .inl a1
    have hnm := levels_named ho hnd hlen ht hg
    obtain ⟨m', c1, c2⟩ := createModel_spec (o := { o with k := k' }) a2.inv st.w.names a2.rep (by
      show Inc k'.n 0 L; rw [a2.grow.n]; exact a2.inc)
    obtain ⟨l1, l2⟩ := lits_spec ho hnd a2.inc (m' := m') (names := st.w.names) c2
    have hall : ∀ l ∈ m', ∃ x, l.var = some x := fun l hl => by
      obtain ⟨p, hp', rfl⟩ := List.mem_map.1 (c2.mem_iff.1 hl)
      exact hnm p.1 (a4 p hp')
    have hcore : ∃ k'' : K, bModel P o st.w.names a = some (some m', k'') ∧ Inv P k'' ∧ Grow (initRef o.k) k'' := by
      rcases hs with hs | ⟨hs, rfl, rfl⟩
      · refine ⟨k', ?_, a2.inv, a2.grow⟩
        unfold bModel
        rw [hs, Option.bind_some, c1]; rfl
      · refine ⟨o.k, ?_, ho.inv, ⟨rfl, fun _ h => h, fun _ _ => rfl, fun _ h => by cases h⟩⟩
        have hm' : m' = [] := by
          unfold createModel at c1
          rw [if_neg (by omega), if_pos rfl] at c1
          simpa using c1.symm
        unfold bModel
        rw [hs, Option.bind_some, hm']
        rfl
    obtain ⟨k'', d1, d2, d3⟩ := hcore
    refine ⟨m'.filterMap unlift, k'', by rw [← unlift_all hall]; exact d1, l1, fun l hl => ?_,
      fun v hv => imp_lits hg a3 l2 (fun p hp' hx => ?_) v hv, hr.keptIn hgr hsz hok hrun hpos d2 d3⟩
    · obtain ⟨y, b⟩ := l
      obtain ⟨l, q1, q2⟩ := (l2 y b).1 hl
      exact (dep_iff ho hnd hlen ht hg y).2 ⟨l, a4 _ q1, q2⟩
    · obtain ⟨x, hx'⟩ := hnm p.1 (a4 p hp')
      rw [hx'] at hx; cases hx

/-- C55: `FullModel`. A BDD without models gives an error. Otherwise the literals of the named variables have each of them
once, and every assignment that agrees with them satisfies the function. Missing: the result has only variables that exist:
it has one more literal, of a variable with the empty name, for each variable of the kernel without a name
(`C55_full_false`). -/
theorem C55_fullModel_partial {P : Par} {Q : RPar} (hgr : ∀ s, s < P.grow s) (h : σ → Bool × σ) (nnf : Fm α → Fm α) (num sz : Nat)
    (hsz : 2 ≤ sz) (order : List α) (ops : List (Op α σ)) (hok : OpsOk nnf ops) {st : St α}
    (hrun : runNew P h nnf num sz order ops = some st) (hpos : ∀ t u v, num ≤ t → Q.pos t u v < Q.cells t)
    {i a : Nat} {o : KO} (hr : Reads P Q num ops st i o) (ha : st.out[i]? = some (.bdd a)) {op : Op α σ} (hop : ops[i]? = some op)
    (hk : op.kept = true) :
    ((∀ v, (sems ops).getD i (fun _ => false) v = false) → bFullModel P o st.w.names a = some (none, o.k)) ∧
    ((∃ v, (sems ops).getD i (fun _ => false) v = true) → ∃ (m' : List (Lit (Option α))) (m : List (Lit α)) (k' : K),
      bFullModel P o st.w.names a = some (some m', k') ∧
      m'.Perm (m.map lift ++ List.replicate (num - st.w.names.length) ⟨none, false⟩) ∧ (m.map (·.var)).Perm st.w.names ∧
      (∀ v, (∀ l ∈ m, l.eval v = true) → (sems ops).getD i (fun _ => false) v = true) ∧
      KeptIn ops st { o with k := k' } st.w.names) := by
  obtain ⟨ho, hnd, hlen', hn, t, ht, hg⟩ := hr.den hgr hsz hok hrun hpos ha
  have hlen := hlen'
  rw [← hn] at hlen
  have hp := hr.prot hgr hsz hok hrun hpos ha hop hk
  refine ⟨fun hf => ?_, fun ⟨v0, hv0⟩ => ?_⟩
  · have := taut_iff ho hnd ht hg hf
    subst this
    have : a = 0 := ht.leaf_idx
    subst this
    rfl
  · have hne : t ≠ .leaf false := by
      rintro rfl
      have := hg _ v0 (byName_ok _ v0)
      rw [hv0] at this
      cases this
    have ha0 : a ≠ 0 := by
      rintro rfl
      exact hne (zero_leaf ht)
    obtain ⟨x, k1, L1, a1, a2, a3, a4, a5⟩ := fullSatOneRec_spec hgr (f := o.k.n + 1) (m := 0) ho.inv.init ho.lv ht (ho.inv.ord ht) hne hp
      (Nat.zero_le _) (by show o.k.n - 0 < _; omega) (by show 0 + o.k.n < 2 * o.k.n + 4; omega)
    have htop : t.top o.k.n ≤ o.k.n := by
      cases t with
      | leaf => exact Nat.le_refl _
      | node v a b => exact Nat.le_of_lt (ho.inv.ord ht).2.1
    have hlv : (k1.nd a).lvl = t.top o.k.n := by
      rw [(core_iff.1 (a2.grow.core a hp)).1]
      exact ht.lvl ho.lv
    obtain ⟨y, k', L, b1, b2, b3, b4, b5⟩ := fill_spec hgr (k := initRef o.k) (a := 0) (t.top o.k.n) (by rw [Nat.zero_add]; exact a2)
      (by rw [Nat.zero_add]; exact a3) a4 a5 (by rw [Nat.zero_add]; exact htop) (by show 0 + (o.k.n - 0) < 2 * o.k.n + 4; omega)
    have hfull : fullSatOne P o.k a = some (y, k') := by
      unfold fullSatOne
      rw [if_neg ha0, a1, Option.bind_some]
      simp only [hlv, List.range_eq_range']
      exact b1
    have hnm := levels_named ho hnd hlen ht hg
    obtain ⟨m', c1, c2⟩ := createModel_spec (o := { o with k := k' }) b2.inv st.w.names b2.rep (by
      show Inc k'.n 0 L; rw [b2.grow.n]; exact b2.inc)
    have c2 : m'.Perm (L.map (levLit o st.w.names)) := c2
    obtain ⟨l1, l2⟩ := lits_spec ho hnd b2.inc (m' := m') (names := st.w.names) c2
    have hvars : ((m'.filterMap unlift).map (·.var)).Perm st.w.names := by
      refine (List.perm_ext_iff_of_nodup l1 hnd).2 fun x => ?_
      constructor
      · intro hx
        obtain ⟨⟨x', b⟩, q1, rfl⟩ := List.mem_map.1 hx
        obtain ⟨l, -, q2⟩ := (l2 _ b).1 q1
        exact List.mem_of_getElem? q2
      · intro hx
        obtain ⟨j, hj, rfl⟩ := List.getElem_of_mem hx
        obtain ⟨e1, e2⟩ := ho.tabs.lv j (by omega)
        have : o.v2l j ∈ L.map (·.1) := by
          rw [b3, List.mem_range'_1]
          show 0 ≤ o.v2l j ∧ o.v2l j < 0 + (o.k.n - 0)
          omega
        obtain ⟨⟨l, b⟩, q1, q2⟩ := List.mem_map.1 this
        simp only at q2
        refine List.mem_map.2 ⟨⟨st.w.names[j], b⟩, (l2 _ b).2 ⟨l, q1, ?_⟩, rfl⟩
        rw [q2, e2]
        exact List.getElem?_eq_getElem hj
    refine ⟨m', m'.filterMap unlift, k', by unfold bFullModel; rw [hfull, Option.bind_some, c1]; rfl, ?_, hvars,
      fun v hv => imp_lits hg b4 l2 (fun p hp' hx => ?_) v hv, hr.keptIn hgr hsz hok hrun hpos b2.inv b2.grow⟩
    · have hsplit : m'.Perm (m'.filter (fun l => l.var.isSome) ++ m'.filter fun l => !l.var.isSome) :=
        (List.filter_append_perm _ _).symm
      have e1 : m'.filter (fun l => l.var.isSome) = (m'.filterMap unlift).map lift := by
        have : (m'.filter fun l => l.var.isSome).filterMap unlift = m'.filterMap unlift := by
          rw [List.filterMap_filter]
          congr 1
          funext l
          unfold unlift
          cases l.var <;> rfl
        rw [← this]
        exact unlift_all fun l hl => Option.isSome_iff_exists.1 (List.mem_filter.1 hl).2
      have e2 : m'.filter (fun l => !l.var.isSome) = List.replicate (num - st.w.names.length) ⟨none, false⟩ := by
        refine List.eq_replicate_iff.2 ⟨?_, fun l hl => ?_⟩
        · have h1 := hsplit.length_eq
          rw [List.length_append, e1, List.length_map] at h1
          have h2 := hvars.length_eq
          rw [List.length_map] at h2
          have h3 : m'.length = num := by
            rw [c2.length_eq, List.length_map, ← List.length_map (f := (·.1)), b3, List.length_range']
            show o.k.n - 0 = num
            omega
          omega
        · obtain ⟨q1, q2⟩ := List.mem_filter.1 hl
          obtain ⟨p, hp', rfl⟩ := List.mem_map.1 (c2.mem_iff.1 q1)
          have hno : st.w.names[o.l2v p.1]? = none := by
            simpa [levLit] using q2
          rcases b5 p hp' with hl | hl
          · obtain ⟨x, hx⟩ := hnm _ hl
            rw [hx] at hno; cases hno
          · unfold levLit
            rw [hno, hl]
      rw [← e1, ← e2]
      exact hsplit
    · rcases b5 p hp' with hl | hl
      · obtain ⟨x, hx'⟩ := hnm _ hl
        rw [hx'] at hx; cases hx
      · exact hl

/-- C55: `Support` returns each variable on which the function depends once, and no other. -/
theorem C55_support {P : Par} {Q : RPar} (hgr : ∀ s, s < P.grow s) (h : σ → Bool × σ) (nnf : Fm α → Fm α) (num sz : Nat)
    (hsz : 2 ≤ sz) (order : List α) (ops : List (Op α σ)) (hok : OpsOk nnf ops) {st : St α}
    (hrun : runNew P h nnf num sz order ops = some st) (hpos : ∀ t u v, num ≤ t → Q.pos t u v < Q.cells t)
    {i a : Nat} {o : KO} (hr : Reads P Q num ops st i o) (ha : st.out[i]? = some (.bdd a)) :
    ∃ (V : List α) (k' : K), bSupport P o st.w.names a = some (V.map some, k') ∧ V.Nodup ∧
      (∀ y, y ∈ V ↔ Dep ((sems ops).getD i fun _ => false) y) ∧ KeptIn ops st { o with k := k' } st.w.names := by
  obtain ⟨ho, hnd, hlen, hn, t, ht, hg⟩ := hr.den hgr hsz hok hrun hpos ha
  rw [← hn] at hlen
  have hinit : ∀ {k' : K}, Grow o.k k' → Grow (initRef o.k) k' := fun {k'} q => by
    have : initRef o.k = o.k := by
      unfold initRef
      have := ho.st
      cases hk : o.k
      rw [hk] at this
      simp only at this
      rw [this]
    rw [this]; exact q
  by_cases h2 : a < 2
  · refine ⟨[], o.k, ?_, List.nodup_nil, fun y => ⟨by simp, fun hy => ?_⟩, hr.keptIn hgr hsz hok hrun hpos ho.inv (hinit (.refl _))⟩
    · unfold bSupport support
      rw [if_pos h2]
      rfl
    · obtain ⟨l, hl, -⟩ := (dep_iff ho hnd hlen ht hg y).1 hy
      rw [ht.lt2 h2] at hl
      simp [T.levels] at hl
  · obtain ⟨x, k', C, a1, a2, a3, a4, a5, a6⟩ := support_spec hgr ho.inv ht (by omega)
    obtain ⟨m', c1, c2⟩ := createModel_spec (o := { o with k := k' }) a2 st.w.names a4 (by show Inc k'.n 0 _; rw [a3.n]; exact a5)
    have c2 : m'.Perm ((C.map fun l => (l, true)).map (levLit o st.w.names)) := c2
    obtain ⟨l1, l2⟩ := lits_spec ho hnd a5 (m' := m') (names := st.w.names) c2
    have hnm := levels_named ho hnd hlen ht hg
    have hall : ∀ l ∈ m', l.pos = true ∧ ∃ x, l.var = some x := fun l hl => by
      obtain ⟨p, hp, rfl⟩ := List.mem_map.1 (c2.mem_iff.1 hl)
      obtain ⟨z, hz, rfl⟩ := List.mem_map.1 hp
      exact ⟨rfl, hnm z ((a6 z).1 hz)⟩
    refine ⟨(m'.filterMap unlift).map (·.var), k', ?_, l1, fun y => ?_, hr.keptIn hgr hsz hok hrun hpos a2 (hinit a3)⟩
    · unfold bSupport
      rw [a1, Option.bind_some, c1]
      simp only [Option.map_some, Option.some.injEq, Prod.mk.injEq, and_true]
      rw [List.filter_eq_self.2 fun l hl => (hall l hl).1]
      conv => lhs; rw [unlift_all fun l hl => (hall l hl).2]
      rw [List.map_map, List.map_map]
      rfl
    · rw [dep_iff ho hnd hlen ht hg y, List.mem_map]
      constructor
      · rintro ⟨⟨x, b⟩, q, rfl⟩
        obtain ⟨l, q1, q2⟩ := (l2 x b).1 q
        obtain ⟨z, hz, e⟩ := List.mem_map.1 q1
        obtain ⟨rfl, rfl⟩ := Prod.mk.inj e
        exact ⟨_, (a6 _).1 hz, q2⟩
      · rintro ⟨l, hl, q⟩
        exact ⟨⟨y, true⟩, (l2 y true).2 ⟨l, List.mem_map_of_mem ((a6 l).2 hl), q⟩, rfl⟩

/-- C55: `ModelWithVariables`, in a kernel without reorderings. If the variables do not fit into the kernel, the code panics.
Otherwise a BDD without models gives an error, and else the result has each variable once, all given variables, and only
variables on which the function depends or given variables with the given value; every assignment that agrees with it
satisfies the function. -/
theorem C55_modelVars {P : Par} (hgr : ∀ s, s < P.grow s) (h : σ → Bool × σ) (nnf : Fm α → Fm α) (num sz : Nat)
    (hsz : 2 ≤ sz) (order : List α) (ops : List (Op α σ)) (hok : OpsOk nnf ops) {st : St α}
    (hrun : runNew P h nnf num sz order ops = some st)
    {i a : Nat} (ha : st.out[i]? = some (.bdd a)) {op : Op α σ} (hop : ops[i]? = some op)
    (hk : op.kept = true) (pol : Bool) (xs : List α) :
    (bModelVars P st.w a pol xs = none ∧
      ∀ U : List α, (∀ x ∈ st.w.names, x ∈ U) → (∀ x ∈ xs, x ∈ U) → num < U.length) ∨
    ((∀ v, (sems ops).getD i (fun _ => false) v = false) → ∃ w', bModelVars P st.w a pol xs = some (none, w')) ∧
    ((∃ v, (sems ops).getD i (fun _ => false) v = true) → ∃ (m : List (Lit α)) (w' : W α),
      bModelVars P st.w a pol xs = some (some (m.map lift), w') ∧ (m.map (·.var)).Nodup ∧
      (∀ x ∈ xs, x ∈ m.map (·.var)) ∧
      (∀ l ∈ m, Dep ((sems ops).getD i fun _ => false) l.var ∨ l.var ∈ xs ∧ l.pos = pol) ∧
      (∀ v, (∀ l ∈ m, l.eval v = true) → (sems ops).getD i (fun _ => false) v = true) ∧
      KeptIn ops st ⟨w'.k, id, id⟩ w'.names) := by
  rcases runNew_spec hgr h nnf num sz hsz order ops hok with ⟨h1, -⟩ | ⟨st', own, h1, h2, h3, -, -⟩
  · rw [h1] at hrun; cases hrun
  rw [h1] at hrun
  injection hrun with hrun
  subst hrun
  have hmap : (xs.map fun x => (⟨x, true⟩ : Lit α)).map (·.var) = xs := by
    rw [List.map_map]; exact List.map_id _
  unfold bModelVars
  rcases compileLits_prot hgr (xs.map fun x => ⟨x, true⟩) h2.good with ⟨c1, c2⟩ | ⟨c, w1, c1, c2, c3, c4, c5, c6⟩
  · rw [hmap] at c2
    exact .inl ⟨by rw [c1]; rfl, fun U q1 q2 => by rw [← h3]; exact c2 U q1 q2⟩
  right
  rw [c1, Option.bind_some]
  have hw := c3.oinv
  have hnd := c3.nd
  have hlen : w1.names.length ≤ w1.k.n := c3.len
  have hown := h2.own i op a hop ha hk
  obtain ⟨t, ht, hg'⟩ := c2.den hown (h2.den i op a hop ha (.inl hk))
  have hg : ∀ (ρ : Nat → Bool) (v : α → Bool), (∀ (j : Nat) x, w1.names[j]? = some x → ρ j = v x) →
      (t.eval fun l => ρ ((⟨w1.k, id, id⟩ : KO).l2v l)) = (sems ops).getD i (fun _ => false) v := hg'
  have hp : HP w1.k a := c3.own.prot hown
  refine ⟨fun hf => ?_, fun ⟨v0, hv0⟩ => ?_⟩
  · have := taut_iff hw hnd ht hg hf
    subst this
    have : a = 0 := ht.leaf_idx
    subst this
    exact ⟨_, rfl⟩
  have hne : t ≠ .leaf false := by
    rintro rfl
    have := hg _ v0 (byName_ok _ v0)
    rw [hv0] at this
    cases this
  have ha0 : a ≠ 0 := by
    rintro rfl
    exact hne (zero_leaf ht)
  obtain ⟨tc, hc, ec⟩ := c5
  have hin : ∀ x ∈ xs, x ∈ w1.names := fun x hx => c6 ⟨x, true⟩ (List.mem_map_of_mem hx)
  -- the levels of the variables
  have hC : ∃ C : List Nat, VarsOf C tc ∧ Inc w1.k.n 0 (C.map fun l => (l, true)) ∧ ∀ l, l ∈ C ↔ ∃ x ∈ xs, w1.names[l]? = some x := by
    by_cases hx0 : xs = []
    · subst hx0
      refine ⟨[], .inr ⟨rfl, ?_⟩, trivial, by simp⟩
      have : c = 0 := by
        have : some (0, st'.w) = some (c, w1) := c1
        simp only [Option.some.injEq, Prod.mk.injEq] at this
        exact this.1.symm
      subst this
      exact zero_leaf hc
    · have hmem : ∀ l, l ∈ (List.range w1.k.n).filter (fun l => decide (∃ x ∈ xs, w1.names[l]? = some x)) ↔ ∃ x ∈ xs, w1.names[l]? = some x := fun l => by
        rw [List.mem_filter, List.mem_range, decide_eq_true_eq]
        refine ⟨fun q => q.2, fun q => ⟨?_, q⟩⟩
        obtain ⟨x, -, q⟩ := q
        exact Nat.lt_of_lt_of_le (List.getElem?_eq_some_iff.1 q).1 hlen
      have hinc : ∀ (C : List Nat) (m : Nat), C.Pairwise (· < ·) → (∀ l ∈ C, m ≤ l ∧ l < w1.k.n) → Inc w1.k.n m (C.map fun l => (l, true)) := by
        intro C
        induction C with
        | nil => intros; trivial
        | cons l C ih =>
          intro m hC hb
          obtain ⟨p1, p2⟩ := List.pairwise_cons.1 hC
          exact ⟨(hb l (by simp)).1, (hb l (by simp)).2, ih (l + 1) p2 fun z hz => ⟨p1 z hz, (hb z (by simp [hz])).2⟩⟩
      have hI := hinc ((List.range w1.k.n).filter fun l => decide (∃ x ∈ xs, w1.names[l]? = some x)) 0
        (List.Pairwise.filter _ List.pairwise_lt_range) fun l hl => ⟨Nat.zero_le _, List.mem_range.1 (List.mem_filter.1 hl).1⟩
      refine ⟨_, .inl ((hw.inv.ord hc).canon _ _ hI.ord fun ρ => ?_), hI, hmem⟩
      obtain ⟨v, hv⟩ := ofPos hnd ρ
      rw [ec ρ v hv, chain_eval, Bool.eq_iff_iff]
      simp only [List.map_eq_nil_iff, ne_eq, hx0, not_false_eq_true, decide_true, Bool.true_and, List.all_eq_true, List.mem_map,
        forall_exists_index, and_imp, forall_apply_eq_imp_iff₂, hmem, Lit.eval]
      constructor
      · rintro q p l x hx hl rfl
        have := q x hx
        rw [hv l x hl]
        simpa using this
      · intro q x hx
        obtain ⟨j, hj, e⟩ := List.getElem_of_mem (hin x hx)
        have hj' : w1.names[j]? = some x := by rw [List.getElem?_eq_getElem hj, e]
        have := q (j, true) j x hx hj' rfl
        rw [hv j x hj'] at this
        simpa using this
  obtain ⟨C, C1, C2, C3⟩ := hC
  obtain ⟨x, k', L, a1, a2, a3, a4, a5⟩ := satOneSetRec_spec hgr pol (f := w1.k.n + 1) (m := 0) (C := C) hw.inv.init hw.lv ht hc C1 C2
    (hw.inv.ord ht) hne hp c4 (Nat.zero_le _) (by show w1.k.n - 0 < _; omega) (by show 0 + (w1.k.n - 0) < 2 * w1.k.n + 4; omega)
  have hs : satOneSet P pol w1.k a c = some (x, k') := by
    unfold satOneSet
    rw [if_neg ha0]; exact a1
  simp only [hs, Option.bind_some]
  have hnm := levels_named hw hnd hlen ht hg
  obtain ⟨m', d1, d2⟩ := createModel_spec (o := ⟨k', id, id⟩) a2.inv w1.names a2.rep (by
    show Inc k'.n 0 L; rw [a2.grow.n]; exact a2.inc)
  have d2 : m'.Perm (L.map (levLit ⟨w1.k, id, id⟩ w1.names)) := d2
  obtain ⟨l1, l2⟩ := lits_spec hw hnd a2.inc (m' := m') (names := w1.names) d2
  have hall : ∀ p ∈ L, ∃ x, w1.names[p.1]? = some x := fun p hp' => by
    rcases a5 p hp' with q | ⟨q, -⟩
    · exact hnm p.1 q
    · obtain ⟨x, -, q⟩ := (C3 _).1 q
      exact ⟨x, q⟩
  have hall' : ∀ l ∈ m', ∃ x, l.var = some x := fun l hl => by
    obtain ⟨p, hp', rfl⟩ := List.mem_map.1 (d2.mem_iff.1 hl)
    exact hall p hp'
  refine ⟨m'.filterMap unlift, { w1 with k := k' }, by rw [← unlift_all hall', d1]; rfl, l1, fun y hy => ?_, fun l hl => ?_,
    fun v hv => imp_lits hg a3 l2 (fun p hp' hx => ?_) v hv, fun j op' b q1 q2 q3 v => ?_⟩
  · obtain ⟨j, hj, e⟩ := List.getElem_of_mem (hin y hy)
    have hj' : w1.names[j]? = some y := by rw [List.getElem?_eq_getElem hj, e]
    obtain ⟨⟨l, b⟩, q1, q2⟩ := List.mem_map.1 (a4 j ((C3 j).2 ⟨y, hy, hj'⟩))
    simp only at q2
    subst q2
    exact List.mem_map.2 ⟨⟨y, b⟩, (l2 y b).2 ⟨l, q1, hj'⟩, rfl⟩
  · obtain ⟨y, b⟩ := l
    obtain ⟨l, q1, q2⟩ := (l2 y b).1 hl
    rcases a5 _ q1 with q | ⟨q, e⟩
    · exact .inl ((dep_iff hw hnd hlen ht hg y).2 ⟨l, q, q2⟩)
    · obtain ⟨x, hx, q3⟩ := (C3 _).1 q
      have : x = y := by
        have q2 : w1.names[l]? = some y := q2
        rw [q2] at q3
        exact (Option.some.inj q3).symm
      subst this
      exact .inr ⟨hx, e⟩
  · obtain ⟨x, hx'⟩ := hall p hp'
    have hx : w1.names[p.1]? = none := hx
    rw [hx'] at hx; cases hx
  · have hob := h2.own j op' b q1 q3 q2
    obtain ⟨s, hs1, hs2⟩ := c2.den hob (h2.den j op' b q1 q3 (.inl q2))
    have hs' : Rep k'.nd b s := a2.grow.rep (c3.own.prot hob) hs1
    show walkL k'.nd _ (k'.n + 1) b = _
    rw [walkL_rep hs' (a2.inv.ord hs') (Nat.zero_le _) (by omega)]
    exact congrArg some (hs2 _ v (byName_ok _ v))

/-! ### Examples -/

/-- what is picked before and after the exchange of the variables 0 and 2: a kernel with room for a fourth variable -/
def exPick (sw : Bool) : Option (Option (List (Lit (Option Nat))) × Option (List (Lit (Option Nat))) × List (Option Nat)) := do
  let st : St Nat ← runNew (exPar 11) exH id 4 13 (List.range 3) [.compile exF ()]
  let o ← if sw then stepR (exPar 11) (exQ 4) ⟨st.w.k, id, id⟩ (.swap 0 2) else some ⟨st.w.k, id, id⟩
  match (st.out[0]? : Option Out) with
  | some (.bdd a) => do
    let m ← bModel (exPar 11) o st.w.names a
    let f ← bFullModel (exPar 11) o st.w.names a
    let s ← bSupport (exPar 11) o st.w.names a
    return (m.1, f.1, s.1)
  | _ => none

example : (exPick true).map (·.1) = some (some [⟨some 2, false⟩]) := by decide +kernel
example : (exPick false).map (·.1.map (·.length)) = some (some 2) := by decide +kernel
example : (exPick false).map (·.2.2.length) = some 3 := by decide +kernel
example : (exPick true).map (·.2.2.length) = some 3 := by decide +kernel

/-- with the variable 3 and the default value true -/
example : ((runNew (exPar 11) exH id 4 13 (List.range 3) [.compile exF ()]).bind fun st =>
    match (st.out[0]? : Option Out) with
    | some (.bdd a) => (bModelVars (exPar 11) st.w a true [3, 1]).map fun x => x.1.map fun m =>
        (m.length, m.contains ⟨some 3, true⟩, m.contains ⟨some 1, true⟩)
    | _ => none) = some (some (4, true, true)) := by decide +kernel

/-- C55, refuted part: `FullModel` of a BDD in a kernel with a variable that has no name has a literal of a variable that does
not exist. -/
theorem C55_full_false : ∃ (st : St Nat) (a : Nat) (m : List (Lit (Option Nat))) (k' : K),
    runNew (exPar 11) exH id 4 13 (List.range 3) [.compile exF ()] = some st ∧ st.out[0]? = some (.bdd a) ∧
    bFullModel (exPar 11) ⟨st.w.k, id, id⟩ st.w.names a = some (some m, k') ∧ ⟨none, false⟩ ∈ m := by
  have hs : (runNew (exPar 11) exH id 4 13 (List.range 3) [.compile exF ()]).isSome = true := by decide +kernel
  obtain ⟨st, hst⟩ := Option.isSome_iff_exists.1 hs
  have ha : ((runNew (exPar 11) exH id 4 13 (List.range 3) [.compile exF ()]).bind fun st =>
      match (st.out[0]? : Option Out) with
      | some (.bdd a) => some (a, st.w.names.length)
      | _ => none).map (·.2) = some 3 := by decide +kernel
  rw [hst] at ha
  simp only [Option.bind_some] at ha
  split at ha
  · next a hout =>
    have hlen : st.w.names.length = 3 := by simpa using ha
    have hQ : ∀ t u v, 4 ≤ t → (exQ 4).pos t u v < (exQ 4).cells t := exQ_pos (by decide)
    obtain ⟨m', m, k', d1, d2, -⟩ := (C55_fullModel_partial (exPar_grow 11) exH id 4 13 (by decide) (List.range 3) _ exF_ok hst hQ
      (i := 0) (.now ⟨_, rfl, .inl rfl⟩) hout rfl rfl).2 ⟨fun _ => true, by decide⟩
    refine ⟨st, a, m', k', hst, hout, d1, d2.mem_iff.2 ?_⟩
    rw [hlen]
    simp
  · cases ha

end Verif.Bdd
