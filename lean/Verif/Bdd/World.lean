import Verif.Bdd.Count
/-
Arbitrary sequences of calls of the BDD API on one kernel.
-/
namespace Verif.Bdd
open Verif
set_option linter.unusedSectionVars false
variable {α σ : Type} [DecidableEq α]

/-- a call; BDDs are referred to by the number of the call that returned them -/
inductive Op (α σ : Type) where
  /-- bdd.go:72-98: compile a formula with a handler in state `s` -/
  | compile (φ : Fm α) (s : σ)
  | lits (ls : List (Lit α))
  | apply (op : Bop) (i j : Nat)
  | neg (i : Nat)
  | restrict (i : Nat) (ls : List (Lit α))
  | exist (i : Nat) (xs : List α)
  | univ (i : Nat) (xs : List α)
  /-- bdd.go:308-311: `ModelCount` -/
  | count (i : Nat)
  /-- bdd.go:378-386: `PathCountOne`, `PathCountZero` -/
  | paths (b : Bool) (i : Nat)

/-- the result of a call -/
inductive Out where
  | none
  | bdd (a : Nat)
  | num (v : Nat)
deriving DecidableEq

structure St (α : Type) where
  w : W α
  out : List Out

def St.handle (st : St α) (i : Nat) : Option Nat :=
  match st.out[i]? with
  | some (.bdd a) => some a
  | _ => .none

def put (st : St α) (w : W α) (o : Out) : St α := { w := w, out := st.out ++ [o] }

def putB (st : St α) (r : Option (Nat × W α)) : Option (St α) := r.map fun p => put st p.2 (.bdd p.1)

def putN (st : St α) (r : Option (Nat × K)) : Option (St α) :=
  r.bind fun p => p.2.heap[p.1]?.map fun v => put st { st.w with k := p.2 } (.num v)

/-- the call of a cancelled compilation has no BDD -/
def outOf : Option Nat → Out
  | .none => .none
  | some a => .bdd a

/-- a call that refers to a call without a BDD is not made -/
def withB (st : St α) (i : Nat) (f : Nat → Option (St α)) : Option (St α) :=
  match st.handle i with
  | some a => f a
  | .none => some (put st st.w .none)

/-- one call; `none` is a panic -/
def step (P : Par) (h : σ → Bool × σ) (nnf : Fm α → Fm α) (st : St α) : Op α σ → Option (St α)
  | .compile φ s => (compile P h nnf φ st.w s).map fun r => put st r.2.1 (outOf r.1)
  | .lits ls => putB st (compileLits P st.w ls)
  | .apply op i j => withB st i fun a => withB st j fun b => putB st (bApply P op st.w a b)
  | .neg i => withB st i fun a => putB st (bNegate P st.w a)
  | .restrict i ls => withB st i fun a => putB st (bRestrict P st.w a ls)
  | .exist i xs => withB st i fun a => putB st (bExists P st.w a xs)
  | .univ i xs => withB st i fun a => putB st (bForAll P st.w a xs)
  | .count i => withB st i fun a => putN st (satCount P st.w.k a)
  | .paths b i => withB st i fun a => putN st (pathCount P b st.w.k a)

/-- a sequence of calls -/
def run (P : Par) (h : σ → Bool × σ) (nnf : Fm α → Fm α) (st : St α) (ops : List (Op α σ)) : Option (St α) :=
  ops.foldlM (step P h nnf) st

/-- a sequence of calls on a new kernel -/
def runNew (P : Par) (h : σ → Bool × σ) (nnf : Fm α → Fm α) (num sz : Nat) (order : List α) (ops : List (Op α σ)) :
    Option (St α) :=
  (newW P num sz order).bind fun w => run P h nnf { w := w, out := [] } ops

/-! ### What the calls should return -/

/-- the function of a call, given the functions of the earlier calls -/
noncomputable def sem (gs : List ((α → Bool) → Bool)) : Op α σ → (α → Bool) → Bool
  | .compile φ _ => fun v => φ.eval v
  | .lits ls => fun v => ls ≠ [] && ls.all fun l => l.eval v
  | .apply op i j => fun v => op.f (gs.getD i (fun _ => false) v) (gs.getD j (fun _ => false) v)
  | .neg i => fun v => !gs.getD i (fun _ => false) v
  | .restrict i ls => gRestrict (gs.getD i fun _ => false) ls
  | .exist i xs => gExists (gs.getD i fun _ => false) xs
  | .univ i xs => gForAll (gs.getD i fun _ => false) xs
  | .count _ => fun _ => false
  | .paths _ _ => fun _ => false

noncomputable def sems (ops : List (Op α σ)) : List ((α → Bool) → Bool) := ops.foldl (fun gs o => gs ++ [sem gs o]) []

/-- calls whose result is referenced by the kernel -/
def Op.kept : Op α σ → Bool
  | .compile _ _ => true
  | .lits _ => true
  | .apply _ _ _ => true
  | .neg _ => true
  | _ => false

def Op.args : Op α σ → List Nat
  | .compile _ _ => []
  | .lits _ => []
  | .apply _ i j => [i, j]
  | .neg i => [i]
  | .restrict i _ => [i]
  | .exist i _ => [i]
  | .univ i _ => [i]
  | .count i => [i]
  | .paths _ i => [i]

def Op.vars : Op α σ → List α
  | .compile φ _ => φ.vars
  | .lits ls => ls.map (·.var)
  | .restrict _ ls => ls.map (·.var)
  | .exist _ xs => xs
  | .univ _ xs => xs
  | _ => []

/-- the operands are referenced BDDs, compiled formulas are compilable -/
def OpOk (nnf : Fm α → Fm α) (pre : List (Op α σ)) (o : Op α σ) : Prop :=
  (∀ i ∈ o.args, ∃ o', pre[i]? = some o' ∧ o'.kept = true) ∧ ∀ φ s, o = .compile φ s → Compilable nnf φ

def OpsOk (nnf : Fm α → Fm α) (ops : List (Op α σ)) : Prop :=
  ∀ pre o post, ops = pre ++ o :: post → OpOk nnf pre o

theorem sems_snoc (ops : List (Op α σ)) (o : Op α σ) : sems (ops ++ [o]) = sems ops ++ [sem (sems ops) o] := by
  simp [sems, List.foldl_append]

theorem sems_length (ops : List (Op α σ)) : (sems ops).length = ops.length := by
  induction ops using List.reverseRecOn with
  | nil => rfl
  | append_singleton ops o ih => rw [sems_snoc]; simp [ih]

/-- the invariant of a sequence of calls -/
structure HInv (P : Par) (ops : List (Op α σ)) (st : St α) (own : Nat → Nat) : Prop where
  good : Good P st.w own
  len : st.out.length = ops.length
  den : ∀ (i : Nat) (o : Op α σ) (a : Nat), ops[i]? = some o → st.out[i]? = some (.bdd a) → o.kept = true ∨ i + 1 = ops.length →
    Den st.w a ((sems ops).getD i fun _ => false)
  bd : BdOk st.w.k
  own : ∀ (i : Nat) (o : Op α σ) (a : Nat), ops[i]? = some o → st.out[i]? = some (.bdd a) → o.kept = true → 0 < own a

theorem HInv.push {P : Par} {ops : List (Op α σ)} {st : St α} {own own' : Nat → Nat} (h : HInv P ops st own) {w' : W α}
    {V : List α} (hg : Good P w' own') (he : Ext own V st.w w' ∨ (w'.k.nd = st.w.k.nd ∧ w'.names = st.w.names))
    (ho : ∀ i, 0 < own i → 0 < own' i) (hb : BdOk w'.k) (o : Op α σ) (x : Out)
    (hx : ∀ a, x = .bdd a → Den w' a (sem (sems ops) o) ∧ (o.kept = true → 0 < own' a)) :
    HInv P (ops ++ [o]) (put st w' x) own' := by
  have hlen := h.len
  have hden : ∀ {i g}, 0 < own i → Den st.w i g → Den w' i g := fun {i g} hi hd => by
    rcases he with he | ⟨e1, e2⟩
    · exact he.den hi hd
    · obtain ⟨t, h1, h2⟩ := hd
      exact ⟨t, by rw [e1]; exact h1, by rw [e2]; exact h2⟩
  have hlast : (ops ++ [o])[ops.length]? = some o := by simp
  have hlast' : (st.out ++ [x])[ops.length]? = some x := by rw [← hlen]; simp
  refine ⟨hg, by simp [put, hlen], fun i o' a h1 h2 h3 => ?_, hb, fun i o' a h1 h2 h3 => ?_⟩
  · have h2 : (st.out ++ [x])[i]? = some (.bdd a) := h2
    have hi : i < ops.length ∨ i = ops.length := by
      have := (List.getElem?_eq_some_iff.1 h1).1
      rw [List.length_append] at this
      simp at this
      omega
    rcases hi with hi | rfl
    · rw [List.getElem?_append_left hi] at h1
      rw [List.getElem?_append_left (by omega)] at h2
      have hk : o'.kept = true := by
        rcases h3 with h3 | h3
        · exact h3
        · simp at h3; omega
      have := hden (h.own i o' a h1 h2 hk) (h.den i o' a h1 h2 (.inl hk))
      rw [sems_snoc, List.getD_eq_getElem?_getD, List.getElem?_append_left (by rw [sems_length]; exact hi),
        ← List.getD_eq_getElem?_getD]
      exact this
    · rw [hlast'] at h2
      injection h2 with h2
      obtain ⟨h4, _⟩ := hx a h2
      rw [sems_snoc, List.getD_eq_getElem?_getD, ← sems_length, List.getElem?_append_right (Nat.le_refl _)]
      rw [Nat.sub_self]
      exact h4
  · have h2 : (st.out ++ [x])[i]? = some (.bdd a) := h2
    have hi : i < ops.length ∨ i = ops.length := by
      have := (List.getElem?_eq_some_iff.1 h1).1
      rw [List.length_append] at this
      simp at this
      omega
    rcases hi with hi | rfl
    · rw [List.getElem?_append_left hi] at h1
      rw [List.getElem?_append_left (by omega)] at h2
      exact ho a (h.own i o' a h1 h2 h3)
    · rw [hlast'] at h2
      injection h2 with h2
      rw [hlast] at h1
      injection h1 with h1
      exact (hx a h2).2 (h1 ▸ h3)

/-- counting a BDD whose top variable is not the first one spoils the cached count -/
def Op.spoils (st : St α) : Op α σ → Prop
  | .count i => ∃ a, st.handle i = some a ∧ 2 ≤ a ∧ (st.w.k.nd a).lvl ≠ 0
  | _ => False

/-- the number of satisfying assignments of the variables of the kernel, of which `names` are in use -/
def models (num : Nat) (names : List α) (g : (α → Bool) → Bool) : Nat := 2 ^ (num - names.length) * Verif.count names g

/-- what one call does -/
structure Did (P : Par) (ops : List (Op α σ)) (st : St α) (o : Op α σ) (st' : St α) (own' : Nat → Nat) : Prop where
  inv : HInv P (ops ++ [o]) st' own'
  n : st'.w.k.n = st.w.k.n
  names : ∃ ys, st'.w.names = st.w.names ++ ys ∧ ∀ y ∈ ys, y ∈ o.vars
  cnt : CntOk st.w.k → ¬o.spoils st → CntOk st'.w.k
  num : CntOk st.w.k → ∀ i a, o = .count i → st.handle i = some a →
    st'.out = st.out ++ [.num (models st.w.k.n st.w.names ((sems ops).getD i fun _ => false))]

theorem bApply_den {P : Par} (hgr : ∀ s, s < P.grow s) (op : Bop) {w : W α} {own : Nat → Nat} (hg : Good P w own)
    {a b : Nat} (ha : 0 < own a) (hb : 0 < own b) {fa fb : (α → Bool) → Bool} (da : Den w a fa) (db : Den w b fb) :
    ∃ x w', bApply P op w a b = some (x, w') ∧ Good P w' (inc own x) ∧ Ext own [] w w' ∧
      Den w' x (fun v => op.f (fa v) (fb v)) := by
  obtain ⟨x, k1, h1, h2, h3, h4⟩ := kapply_den hgr op hg ha hb da db
  obtain ⟨k2, g1, g2, g3, g4⟩ := addRef_den h2 h4
  refine ⟨x, { w with k := k2 }, ?_, g2, h3.trans (V'' := []) (g3 own) (fun _ h => h) (by simp) (by simp), g4 _ _ h4⟩
  simp only [bApply, Option.bind_eq_bind, h1, Option.bind_some]
  rw [show addRef k1 x = some k2 from g1]
  rfl

theorem bNegate_den {P : Par} (hgr : ∀ s, s < P.grow s) {w : W α} {own : Nat → Nat} (hg : Good P w own)
    {a : Nat} (ha : 0 < own a) {fa : (α → Bool) → Bool} (da : Den w a fa) :
    ∃ x w', bNegate P w a = some (x, w') ∧ Good P w' (inc own x) ∧ Ext own [] w w' ∧ Den w' x (fun v => !fa v) := by
  obtain ⟨x, k1, h1, h2, h3, h4⟩ := knot_den hgr hg ha da
  obtain ⟨k2, g1, g2, g3, g4⟩ := addRef_den h2 h4
  refine ⟨x, { w with k := k2 }, ?_, g2, h3.trans (V'' := []) (g3 own) (fun _ h => h) (by simp) (by simp), g4 _ _ h4⟩
  simp only [bNegate, Option.bind_eq_bind, h1, Option.bind_some]
  rw [show addRef k1 x = some k2 from g1]
  rfl

theorem cnt_models {P : Par} {w : W α} {own : Nat → Nat} (hg : Good P w own) {a : Nat} {g : (α → Bool) → Bool} {t : T}
    (hr : Rep w.k.nd a t)
    (he : ∀ (ρ : Nat → Bool) (v : α → Bool), (∀ (j : Nat) x, w.names[j]? = some x → ρ j = v x) → t.eval ρ = g v) :
    t.cnt w.k.n 0 = models w.k.n w.names g := by
  rw [← T.cnt_spec (n := w.k.n) w.k.n 0 (by omega) (hg.wf.inv.ord hr), ← List.range_eq_range']
  exact count_names hg.nd g t he hg.len

section
variable {P : Par} (hgr : ∀ s, s < P.grow s) (h : σ → Bool × σ) (nnf : Fm α → Fm α)
include hgr

theorem step_spec {ops : List (Op α σ)} {st : St α} {own : Nat → Nat} (hi : HInv P ops st own) {o : Op α σ}
    (hok : OpOk nnf ops o) :
    (step P h nnf st o = none ∧ NoFit st.w o.vars) ∨ ∃ st' own', step P h nnf st o = some st' ∧ Did P ops st o st' own' := by
  have skip : ∀ {i}, i ∈ o.args → st.handle i = none → Did P ops st o (put st st.w .none) own := fun {i} him hn =>
    ⟨hi.push (V := []) hi.good (.inl (.refl _ _ _)) (fun _ h => h) hi.bd o .none (by intro a ha; cases ha), rfl, ⟨[], by simp [put]⟩, fun h _ => h,
      fun _ i' a ho ha => by
        subst ho
        simp [Op.args] at him
        rw [him, ha] at hn
        cases hn⟩
  have argd : ∀ {i a}, i ∈ o.args → st.handle i = some a → 0 < own a ∧ Den st.w a ((sems ops).getD i fun _ => false) := by
    intro i a him ha
    obtain ⟨o', h1, h2⟩ := hok.1 i him
    unfold St.handle at ha
    split at ha
    · next b hb =>
      injection ha with ha
      subst ha
      exact ⟨hi.own i o' b h1 hb h2, hi.den i o' b h1 hb (.inl h2)⟩
    · cases ha
  -- a call that returns a BDD
  have bdd : ∀ {w' : W α} {own' : Nat → Nat} {x : Out} (V : List α), Good P w' own' → Ext own V st.w w' → (∀ y ∈ V, y ∈ o.vars) →
      (∀ i, 0 < own i → 0 < own' i) → (∀ a, x = .bdd a → Den w' a (sem (sems ops) o) ∧ (o.kept = true → 0 < own' a)) →
      (∀ i, o ≠ .count i) → Did P ops st o (put st w' x) own' := by
    intro w' own' x V g1 g2 g3 g4 g5 g6
    obtain ⟨ys, e1, e2⟩ := g2.names
    exact ⟨hi.push g1 (.inl g2) g4 (hi.bd.surv g2.surv g2.heap) o _ g5, g2.n, ⟨ys, e1, fun y hy => g3 y (e2 y hy)⟩,
      fun hc _ => hc.surv g2.surv g2.n g2.heap, fun _ i a ho _ => absurd ho (g6 i)⟩
  cases ho : o with
  | compile φ s =>
    rcases compile_spec hgr h nnf (hok.2 φ s ho) s hi.good with ⟨h1, h2⟩ | ⟨x, w', s', h1, h2, h3⟩
    · left
      simp only [step, h1, Option.map_none, true_and]
      exact h2
    · right
      rw [← ho]
      simp only [ho, step, h1, Option.map_some]
      rw [← ho]
      cases x with
      | none =>
        exact ⟨_, own, rfl, bdd _ h3 h2 (by rw [ho]; exact fun _ h => h) (fun _ h => h) (by intro a ha; cases ha) (by rw [ho]; intro i hh; cases hh)⟩
      | some x =>
        exact ⟨_, _, rfl, bdd _ h3.1 h2 (by rw [ho]; exact fun _ h => h) (fun _ h => inc_pos h) (by
          intro a ha
          injection ha with ha
          subst ha
          rw [ho]
          exact ⟨h3.2, fun _ => inc_self⟩) (by rw [ho]; intro i hh; cases hh)⟩
  | lits ls =>
    by_cases hne : ls = []
    · right
      subst hne
      refine ⟨_, inc own 0, rfl, ?_⟩
      rw [← ho]
      refine bdd (w' := st.w) [] ⟨hi.good.wf, fun i hi2 => ?_, hi.good.nd, hi.good.len⟩ (.refl _ _ _) (by simp) (fun _ h => inc_pos h) (by
          intro a ha
          injection ha with ha
          subst ha
          rw [ho]
          exact ⟨⟨_, .ff, fun _ _ _ => rfl⟩, fun _ => inc_self⟩) (by rw [ho]; intro i hh; cases hh)
      unfold inc; rw [upd_ne _ _ (by omega)]; exact hi.good.own i hi2
    · rcases compileLits_spec hgr hne hi.good with ⟨h1, h2⟩ | ⟨x, w', h1, h2, h3, h4, _⟩
      · left
        simp only [step, h1, putB, Option.map_none, true_and]
        exact h2
      · right
        simp only [step, h1, putB, Option.map_some]
        rw [← ho]
        exact ⟨_, _, rfl, bdd _ h3 h2 (by rw [ho]; exact fun _ h => h) (fun _ h => inc_pos h) (by
          intro a ha
          injection ha with ha
          subst ha
          rw [ho]
          refine ⟨?_, fun _ => inc_self⟩
          simpa [sem, hne] using h4) (by rw [ho]; intro i hh; cases hh)⟩
  | apply op i j =>
    right
    simp only [step, withB]
    rw [← ho]
    cases hhi : st.handle i with
    | none => exact ⟨_, own, rfl, skip (by rw [ho]; simp [Op.args]) hhi⟩
    | some a =>
      simp only
      cases hhj : st.handle j with
      | none => exact ⟨_, own, rfl, skip (by rw [ho]; simp [Op.args]) hhj⟩
      | some b =>
        obtain ⟨a1, a2⟩ := argd (by rw [ho]; simp [Op.args]) hhi
        obtain ⟨b1, b2⟩ := argd (by rw [ho]; simp [Op.args]) hhj
        obtain ⟨x, w', h1, h2, h3, h4⟩ := bApply_den hgr op hi.good a1 b1 a2 b2
        simp only [putB, h1, Option.map_some]
        exact ⟨_, _, rfl, bdd _ h2 h3 (by simp) (fun _ h => inc_pos h) (by
          intro a ha
          injection ha with ha
          subst ha
          rw [ho]
          exact ⟨h4, fun _ => inc_self⟩) (by rw [ho]; intro i hh; cases hh)⟩
  | neg i =>
    right
    simp only [step, withB]
    rw [← ho]
    cases hhi : st.handle i with
    | none => exact ⟨_, own, rfl, skip (by rw [ho]; simp [Op.args]) hhi⟩
    | some a =>
      obtain ⟨a1, a2⟩ := argd (by rw [ho]; simp [Op.args]) hhi
      obtain ⟨x, w', h1, h2, h3, h4⟩ := bNegate_den hgr hi.good a1 a2
      simp only [putB, h1, Option.map_some]
      exact ⟨_, _, rfl, bdd _ h2 h3 (by simp) (fun _ h => inc_pos h) (by
          intro a ha
          injection ha with ha
          subst ha
          rw [ho]
          exact ⟨h4, fun _ => inc_self⟩) (by rw [ho]; intro i hh; cases hh)⟩
  | restrict i ls =>
    simp only [step, withB]
    rw [← ho]
    cases hhi : st.handle i with
    | none => exact .inr ⟨_, own, rfl, skip (by rw [ho]; simp [Op.args]) hhi⟩
    | some a =>
      obtain ⟨a1, a2⟩ := argd (by rw [ho]; simp [Op.args]) hhi
      rcases bRestrict_spec hgr ls hi.good a1 a2 with ⟨h1, h2⟩ | ⟨x, w', h1, h2, h3, h4⟩
      · left
        simp only [putB, h1, Option.map_none, true_and]
        rw [ho]; exact h2
      · right
        simp only [putB, h1, Option.map_some]
        exact ⟨_, own, rfl, bdd _ h3 h2 (by rw [ho]; exact fun _ h => h) (fun _ h => h) (by
          intro a ha
          injection ha with ha
          subst ha
          rw [ho]
          exact ⟨h4, fun h => by cases h⟩) (by rw [ho]; intro i hh; cases hh)⟩
  | exist i xs =>
    simp only [step, withB]
    rw [← ho]
    cases hhi : st.handle i with
    | none => exact .inr ⟨_, own, rfl, skip (by rw [ho]; simp [Op.args]) hhi⟩
    | some a =>
      obtain ⟨a1, a2⟩ := argd (by rw [ho]; simp [Op.args]) hhi
      rcases bExists_spec hgr xs hi.good a1 a2 with ⟨h1, h2⟩ | ⟨x, w', h1, h2, h3, h4⟩
      · left
        simp only [putB, h1, Option.map_none, true_and]
        rw [ho]; exact h2
      · right
        simp only [putB, h1, Option.map_some]
        exact ⟨_, own, rfl, bdd _ h3 h2 (by rw [ho]; exact fun _ h => h) (fun _ h => h) (by
          intro a ha
          injection ha with ha
          subst ha
          rw [ho]
          exact ⟨h4, fun h => by cases h⟩) (by rw [ho]; intro i hh; cases hh)⟩
  | univ i xs =>
    simp only [step, withB]
    rw [← ho]
    cases hhi : st.handle i with
    | none => exact .inr ⟨_, own, rfl, skip (by rw [ho]; simp [Op.args]) hhi⟩
    | some a =>
      obtain ⟨a1, a2⟩ := argd (by rw [ho]; simp [Op.args]) hhi
      rcases bForAll_spec hgr xs hi.good a1 a2 with ⟨h1, h2⟩ | ⟨x, w', h1, h2, h3, h4⟩
      · left
        simp only [putB, h1, Option.map_none, true_and]
        rw [ho]; exact h2
      · right
        simp only [putB, h1, Option.map_some]
        exact ⟨_, own, rfl, bdd _ h3 h2 (by rw [ho]; exact fun _ h => h) (fun _ h => h) (by
          intro a ha
          injection ha with ha
          subst ha
          rw [ho]
          exact ⟨h4, fun h => by cases h⟩) (by rw [ho]; intro i hh; cases hh)⟩
  | count i =>
    right
    simp only [step, withB]
    rw [← ho]
    cases hhi : st.handle i with
    | none => exact ⟨_, own, rfl, skip (by rw [ho]; simp [Op.args]) hhi⟩
    | some a =>
      obtain ⟨a1, t, a2, a3⟩ := argd (by rw [ho]; simp [Op.args]) hhi
      obtain ⟨p, M, H, h1, h2, h3, h4, h5⟩ := satCount_total hi.good.wf a2 hi.bd
      simp only [putN, h1, Option.bind_some, List.getElem?_eq_getElem h3, Option.map_some]
      have hcnt : CntOk st.w.k → H[p] = t.cnt st.w.k.n 0 ∧ (a < 2 ∨ (st.w.k.nd a).lvl = 0 →
          CntOk { st.w.k with misc := M, heap := H }) := fun hc => by
        obtain ⟨p', M', H', d1, d2, d3, d4⟩ := satCount_spec hi.good.wf a2 hc
        rw [h1] at d1
        injection d1 with d1
        obtain ⟨e1, e2⟩ := Prod.mk.injEq _ _ _ _ ▸ d1
        have e3 : M = M' := congrArg K.misc e2
        have e4 : H = H' := congrArg K.heap e2
        subst e1 e3 e4
        rw [List.getElem?_eq_getElem h3] at d2
        injection d2 with d2
        exact ⟨d2, d4⟩
      refine ⟨_, own, rfl, hi.push (V := [])
        (w' := { st.w with k := { st.w.k with misc := M, heap := H } }) ⟨hi.good.wf.setCnt h5, hi.good.own, hi.good.nd, hi.good.len⟩ (.inr ⟨rfl, rfl⟩)
        (fun _ h => h) h2 o (.num H[p]) (by intro a ha; cases ha), rfl, ⟨[], by simp [put]⟩, fun hc hs => (hcnt hc).2 ?_, fun hc i' a' ho' _ => ?_⟩
      · by_cases h2 : a < 2
        · exact .inl h2
        · right
          by_contra hne
          exact hs (by rw [ho]; exact ⟨a, hhi, by omega, hne⟩)
      · rw [ho] at ho'
        injection ho' with ho'
        subst ho'
        rw [← cnt_models hi.good a2 a3, ← (hcnt hc).1]
        rfl
  | paths b i =>
    right
    simp only [step, withB]
    rw [← ho]
    cases hhi : st.handle i with
    | none => exact ⟨_, own, rfl, skip (by rw [ho]; simp [Op.args]) hhi⟩
    | some a =>
      obtain ⟨a1, t, a2, a3⟩ := argd (by rw [ho]; simp [Op.args]) hhi
      obtain ⟨p, M, H, h1, h2, h3, h4, h5⟩ := pathRec_total (P := P) (b := b) (f := st.w.k.n + 1) a2 (hi.good.wf.inv.ord a2)
        (by omega) (by omega) hi.bd
      simp only [putN, pathCount, h1, Option.bind_some, List.getElem?_eq_getElem h3, Option.map_some]
      refine ⟨_, own, rfl, hi.push (V := [])
        (w' := { st.w with k := { st.w.k with misc := M, heap := H } }) ⟨hi.good.wf.setCnt h5, hi.good.own, hi.good.nd, hi.good.len⟩ (.inr ⟨rfl, rfl⟩)
        (fun _ h => h) h2 o (.num H[p]) (by intro a ha; cases ha), rfl, ⟨[], by simp [put]⟩, fun hc hs => ?_, fun hc i' a' ho' _ => ?_⟩
      · obtain ⟨p', M', H', d1, d2, _⟩ := pathRec_spec (P := P) (b := b) (f := st.w.k.n + 1) a2 (hi.good.wf.inv.ord a2)
          (by omega) (by omega) hc
        rw [h1] at d1
        injection d1 with d1
        obtain ⟨_, e2⟩ := Prod.mk.injEq _ _ _ _ ▸ d1
        show CntOk { st.w.k with misc := M, heap := H }
        rw [e2]; exact d2
      · rw [ho] at ho'; cases ho'
end

/-! ### Sequences of calls -/

theorem runNew_spec {P : Par} (hgr : ∀ s, s < P.grow s) (h : σ → Bool × σ) (nnf : Fm α → Fm α) (num sz : Nat) (hsz : 2 ≤ sz)
    (order : List α) (ops : List (Op α σ)) (hok : OpsOk nnf ops) :
    (runNew P h nnf num sz order ops = none ∧ ∀ U : List α, (∀ x ∈ order, x ∈ U) → (∀ o ∈ ops, ∀ x ∈ o.vars, x ∈ U) →
      num < U.length) ∨
    ∃ st own, runNew P h nnf num sz order ops = some st ∧ HInv P ops st own ∧ st.w.k.n = num ∧
      (∀ x ∈ st.w.names, x ∈ order ∨ ∃ o ∈ ops, x ∈ o.vars) ∧
      ((∀ pre o post st, ops = pre ++ o :: post → runNew P h nnf num sz order pre = some st → ¬o.spoils st) →
        CntOk st.w.k) := by
  induction ops using List.reverseRecOn with
  | nil =>
    rcases newW_spec hgr num sz hsz order with ⟨h1, h2⟩ | ⟨w, h1, h2, h3, h4, h5, h6⟩
    · left
      exact ⟨by unfold runNew; rw [h1]; rfl, fun U a _ => h2 U a⟩
    · right
      refine ⟨{ w := w, out := [] }, fun _ => 0, by unfold runNew; rw [h1]; rfl, ⟨h2, rfl, ?_, ?_, ?_⟩, h3, fun x hx => .inl (h6 x hx), fun _ => ?_⟩
      · intro i o a h; simp at h
      · intro s r ha hc
        have := h5 s r ha
        have hc : (w.k.misc s).c < 9 := hc
        omega
      · intro i o a h; simp at h
      · refine ⟨fun s r ha hc => ?_, fun s r ha hc => ?_, fun s s' r r' ha hc => ?_⟩
        · have := h5 s r ha; have hc : (w.k.misc s).c = 2 := hc; omega
        · have := h5 s r ha; have hc : (w.k.misc s).c = 4 ∨ (w.k.misc s).c = 8 := hc; omega
        · have := h5 s r ha; have hc : (w.k.misc s).c = 2 := hc; omega
  | append_singleton ops o ih =>
    have hrun : runNew P h nnf num sz order (ops ++ [o]) = (runNew P h nnf num sz order ops).bind fun st => step P h nnf st o := by
      unfold runNew run
      cases newW P num sz order with
      | none => rfl
      | some w =>
        simp only [Option.bind_some, List.foldlM_append]
        cases List.foldlM (step P h nnf) { w := w, out := [] } ops with
        | none => rfl
        | some st => simp [List.foldlM_cons]
    rcases ih (fun pre o' post e => hok pre o' (post ++ [o]) (by rw [e]; simp)) with ⟨h1, h2⟩ | ⟨st, own, h1, h2, h3, h4, h5⟩
    · exact .inl ⟨by rw [hrun, h1]; rfl, fun U a b => h2 U a fun o ho => b o (by simp [ho])⟩
    · rw [hrun, h1]
      simp only [Option.bind_some]
      rcases step_spec hgr h nnf h2 (hok ops o [] rfl) with ⟨d1, d2⟩ | ⟨st', own', d1, d2⟩
      · left
        refine ⟨d1, fun U a b => ?_⟩
        rw [← h3]
        refine d2 U (fun x hx => ?_) (b o (by simp))
        rcases h4 x hx with h | ⟨o', ho', hx'⟩
        · exact a x h
        · exact b o' (by simp [ho']) x hx'
      · right
        refine ⟨st', own', d1, d2.inv, d2.n.trans h3, fun x hx => ?_, fun hsp => ?_⟩
        · obtain ⟨ys, e1, e2⟩ := d2.names
          rw [e1] at hx
          rcases List.mem_append.1 hx with hx | hx
          · rcases h4 x hx with h | ⟨o', ho', hx'⟩
            · exact .inl h
            · exact .inr ⟨o', by simp [ho'], hx'⟩
          · exact .inr ⟨o, by simp, e2 x hx⟩
        · refine d2.cnt (h5 fun pre o' post st0 e => hsp pre o' (post ++ [o]) st0 (by rw [e]; simp)) (hsp ops o [] st rfl h1)

end Verif.Bdd
