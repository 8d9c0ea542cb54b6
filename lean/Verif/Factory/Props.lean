import Verif.Factory.Refine
/-
Properties C01–C05 of the caching formula factory.

Vocabulary: `Reach c s` — `s` is the state after some finite sequence of admissible constructor calls on a fresh factory
(28-bit id space not exhausted); `Den s.nodes f h` — the handle `h` stands for the tree `f`;
`Fm.eval` — truth value of a tree (`Verif.Spec.Formula`).
-/
namespace Verif.Factory
open Verif Verif.Tree

/-- handle returned by a call is known to the factory afterwards -/
theorem step_valid {s : Fac} (i : Inv s) {op : Op} (ok : op.Ok s) (hb : (step s op).1.id < 2 ^ 28) :
    V (step s op).1.nodes (step s op).2 := by
  have isn : ∀ {N : Nodes} {o h : H}, IsNot N o h → V N h := by
    intro N o h n
    cases n with
    | fls _ h2 => exact .inr (.inl h2)
    | tru _ h2 => exact .inl h2
    | lit nm p _ h2 => exact .inr (.inr (by rw [h2]; rfl))
    | down _ h2 => exact .inr (.inr h2)
    | up h1 _ => exact .inr (.inr (by rw [h1]; rfl))
  have cst : ∀ {N : Nodes} {b : Bool}, V N (constant b) := by
    intro N b; cases b
    · exact .inl rfl
    · exact .inr (.inl rfl)
  cases op with
  | var n => exact .inr (.inr (by have := (mkVar_good i n hb).2; simp only [step]; rw [this]; rfl))
  | lit n p => exact .inr (.inr (by have := (mkLit_good i n p hb).2; simp only [step]; rw [this]; rfl))
  | not o => exact isn (mkNot_good i ok hb).2
  | impl l r =>
    have h := mkImpl_good i ok.1 ok.2 hb
    have p := h.2
    simp only [step]
    unfold ImplPost at p
    split at p
    · rw [p]; exact .inr (.inl rfl)
    split at p
    · rw [p]; exact h.1.ext.V ok.2
    split at p
    · exact isn p
    split at p
    · rw [p]; exact .inr (.inl rfl)
    · exact .inr (.inr (by rw [p]; rfl))
  | equiv l r =>
    have h := mkEquiv_good i ok.1 ok.2 hb
    have p := h.2
    simp only [step]
    unfold EquivPost at p
    split at p
    · rw [p]; exact h.1.ext.V ok.2
    split at p
    · rw [p]; exact h.1.ext.V ok.1
    split at p
    · exact isn p
    split at p
    · exact isn p
    split at p
    · rw [p]; exact .inr (.inl rfl)
    split at p
    · rw [p]; exact .inl rfl
    · exact .inr (.inr (by rw [p]; rfl))
  | and ops =>
    have h := mkAnd_good i ok hb
    rcases h.2 with p | p
    · exact .inr (.inr (by simp only [step]; rw [h.1.ext _ _ p]; rfl))
    · split at p
      · exact .inl p
      · rename_i a ha
        split at p
        · exact .inr (.inl p)
        · rename_i f hf
          have := condenseAnd_mem i ok ha f (by simp [hf])
          exact .inr (.inr (by simp only [step]; rw [p]; exact h.1.ext.some this.1))
        · exact .inr (.inr (by simp only [step]; rw [p]; rfl))
  | or ops =>
    have h := mkOr_good i ok hb
    rcases h.2 with p | p
    · exact .inr (.inr (by simp only [step]; rw [h.1.ext _ _ p]; rfl))
    · split at p
      · exact .inr (.inl p)
      · rename_i a ha
        split at p
        · exact .inl p
        · rename_i f hf
          have := condenseOr_mem i ok ha f (by simp [hf])
          exact .inr (.inr (by simp only [step]; rw [p]; exact h.1.ext.some this.1))
        · exact .inr (.inr (by simp only [step]; rw [p]; rfl))
  | minterm ops =>
    have h := mkMinterm_good i ok hb
    have p := h.2
    simp only [step]
    unfold MintermPost at p
    split at p
    · exact .inr (.inl p)
    · rename_i f
      obtain ⟨n, q, hn⟩ := ok f (by simp)
      exact .inr (.inr (by rw [p, h.1.ext _ _ hn]; rfl))
    · exact .inr (.inr (by rw [p]; rfl))
  | clause ops =>
    have h := mkClause_good i ok hb
    have p := h.2
    simp only [step]
    unfold ClausePost at p
    split at p
    · exact .inl p
    · rename_i f
      obtain ⟨n, q, hn⟩ := ok f (by simp)
      exact .inr (.inr (by rw [p, h.1.ext _ _ hn]; rfl))
    · exact .inr (.inr (by rw [p]; rfl))
  | cc c k vs =>
    have p := (constructCC_good i (by omega) ok hb).2
    simp only [step, mkCC]
    unfold CCPost at p
    split at p
    · rw [p]; exact cst
    · exact .inr (.inr (by rw [p]; rfl))
  | pbc c k ts =>
    have p := (mkPBC_good i ok hb).2
    simp only [step]
    unfold PBCPost at p
    split at p
    · rw [p]; exact cst
    split at p
    · exact .inr (.inr (by rw [p]; rfl))
    · exact .inr (.inr (by rw [p]; rfl))
  | auxVar n => exact .inr (.inr (by have := (mkAuxVar_good i n hb).2; simp only [step]; rw [this]; rfl))

/-! ## C02 — constructors mean what they say -/

/-- Specification: truth value of a constructor applied to arguments with truth values `ev`.  Nothing of the factory is used. -/
def opMeaning (v : String → Bool) (ev : H → Bool) : Op → Option Bool
  | .var n => some (v n)
  | .lit n p => some (if p then v n else !v n)
  | .not o => some (!ev o)
  | .impl l r => some (!ev l || ev r)
  | .equiv l r => some (ev l == ev r)
  | .and ops | .minterm ops => some (ops.all ev)
  | .or ops | .clause ops => some (ops.any ev)
  | .cc c k vs => some (c.holds (vs.map (fun h => if ev h then (1 : Int) else 0)).sum k)
  | .pbc c k ts => some (c.holds (ts.map (fun t => if ev t.2 then t.1 else 0)).sum k)
  | .auxVar _ => none

theorem cntTrue_sum {A : Type} (e : A → Bool) : ∀ xs : List A, cntTrue e xs = (xs.map (fun h => if e h then (1 : Int) else 0)).sum
  | [] => rfl
  | x :: xs => by simp only [cntTrue, List.map_cons, List.sum_cons, cntTrue_sum e xs]
theorem sumH_sum (e : H → Bool) : ∀ ts : List (Int × H), sumH e ts = (ts.map (fun t => if e t.2 then t.1 else 0)).sum
  | [] => rfl
  | (a, h) :: ts => by simp only [sumH, List.map_cons, List.sum_cons, sumH_sum e ts]

theorem sum_map_congr {A : Type} {f g : A → Int} : ∀ {xs : List A}, (∀ x ∈ xs, f x = g x) → (xs.map f).sum = (xs.map g).sum
  | [], _ => rfl
  | x :: xs, h => by
    simp only [List.map_cons, List.sum_cons]
    rw [h x (by simp), sum_map_congr (fun y hy => h y (by simp [hy]))]

/-- C02: in every reachable state, every admissible call returns a handle that stands for a formula, and whatever formula it stands for
has under every assignment the truth value of the connective applied to the truth values of the arguments
(`ev` is any function giving each argument handle the truth value of the formula it stands for). -/
theorem C02_constructor_semantics {c : Bool} {s : Fac} (r : Reach c s) {op : Op} (ok : op.Ok s)
    (hb : (step s op).1.id < 2 ^ 28) :
    (∃ g, Den (step s op).1.nodes g (step s op).2) ∧
    ∀ (v : String → Bool) (ev : H → Bool), (∀ f h, Den s.nodes f h → ev h = f.eval v) →
      ∀ g, Den (step s op).1.nodes g (step s op).2 → ∀ b, opMeaning v ev op = some b → g.eval v = b := by
  have i := r.inv
  have gd := step_good i ok hb
  refine ⟨Den.total gd.inv.core _ (step_valid i ok hb), ?_⟩
  intro v ev hev g dg b hm
  have cs := evalH_cons gd.inv.core v
  rw [← evalH_den gd.inv.core dg]
  have agree : ∀ o, Valid s o → evalH (step s op).1.nodes v o = ev o := by
    intro o ho
    obtain ⟨f, df⟩ := Den.total i.core o ho
    rw [hev f o df, evalH_den gd.inv.core (Den.ext gd.ext _ _ df)]
  have vlit : ∀ {o}, ValidLit s o → Valid s o := fun ⟨n, p, h⟩ => .inr (.inr (by rw [h]; rfl))
  have vvar : ∀ {o}, ValidVar s o → Valid s o := fun ⟨n, h⟩ => .inr (.inr (by rw [h]; rfl))
  cases op with
  | var n =>
    have := (mkVar_good i n hb).2
    simp only [opMeaning, Option.some.injEq] at hm
    rw [← hm]; refine (cs.lit this).trans ?_; simp [Lit.eval]
  | lit n p =>
    have := (mkLit_good i n p hb).2
    simp only [opMeaning, Option.some.injEq] at hm
    rw [← hm]; refine (cs.lit this).trans ?_; simp [Lit.eval]
  | not o =>
    have := (mkNot_good i ok hb).2
    simp only [opMeaning, Option.some.injEq] at hm
    rw [← hm, ← agree o ok]; exact this.eval cs
  | impl l r =>
    have := (mkImpl_good i ok.1 ok.2 hb).2
    simp only [opMeaning, Option.some.injEq] at hm
    rw [← hm, ← agree l ok.1, ← agree r ok.2]; exact this.eval gd.inv.core cs (gd.ext.V ok.1) (gd.ext.V ok.2)
  | equiv l r =>
    have := (mkEquiv_good i ok.1 ok.2 hb).2
    simp only [opMeaning, Option.some.injEq] at hm
    rw [← hm, ← agree l ok.1, ← agree r ok.2]; exact this.eval gd.inv.core cs (gd.ext.V ok.1) (gd.ext.V ok.2)
  | and ops =>
    have := (mkAnd_good i ok hb).2.eval i gd cs ok
    simp only [opMeaning, Option.some.injEq] at hm
    rw [← hm]; refine this.trans ?_
    rw [Bool.eq_iff_iff, List.all_eq_true, List.all_eq_true]
    exact forall₂_congr fun o ho => by rw [← agree o (ok o ho)]
  | or ops =>
    have := (mkOr_good i ok hb).2.eval i gd cs ok
    simp only [opMeaning, Option.some.injEq] at hm
    rw [← hm]; refine this.trans ?_
    rw [Bool.eq_iff_iff, List.any_eq_true, List.any_eq_true]
    exact exists_congr fun o => and_congr_right fun ho => by rw [← agree o (ok o ho)]
  | minterm ops =>
    have := (mkMinterm_good i ok hb).2.eval cs
    simp only [opMeaning, Option.some.injEq] at hm
    rw [← hm]; refine this.trans ?_
    rw [Bool.eq_iff_iff, List.all_eq_true, List.all_eq_true]
    exact forall₂_congr fun o ho => by rw [← agree o (vlit (ok o ho))]
  | clause ops =>
    have := (mkClause_good i ok hb).2.eval cs
    simp only [opMeaning, Option.some.injEq] at hm
    rw [← hm]; refine this.trans ?_
    rw [Bool.eq_iff_iff, List.any_eq_true, List.any_eq_true]
    exact exists_congr fun o => and_congr_right fun ho => by rw [← agree o (vlit (ok o ho))]
  | cc cm k vs =>
    have := (constructCC_good i (by omega) ok hb).2.eval cs
    simp only [opMeaning, Option.some.injEq] at hm
    rw [← hm]; refine this.trans ?_
    rw [cntTrue_sum, sum_map_congr]
    intro o ho
    rw [← agree o (vvar (ok o ho))]
  | pbc cm k ts =>
    have := (mkPBC_good i ok hb).2.eval cs
    simp only [opMeaning, Option.some.injEq] at hm
    rw [← hm]; refine this.trans ?_
    rw [sumH_sum, sum_map_congr]
    intro t ht
    rw [← agree t.2 (vlit (ok t ht))]
  | auxVar n => simp [opMeaning] at hm

/-! ## C01 — hash-consing -/

/-- C01 (second half): two handles of one factory standing for the same formula are the same handle. -/
theorem C01_handle_unique {c : Bool} {s : Fac} (r : Reach c s) {f : Fm String} {h h' : H}
    (d : Den s.nodes f h) (d' : Den s.nodes f h') : h = h' := Den.inj r.inv.core f h h' d d'

/-- … and a handle stands for one formula only. -/
theorem C01_formula_unique {c : Bool} {s : Fac} (r : Reach c s) {f g : Fm String} {h : H}
    (d : Den s.nodes f h) (d' : Den s.nodes g h) : f = g := Den.det r.inv.core.ne_const f g h d d'

/-- … and different handles have different 28-bit ids (so the id alone, as used by `opCache`, identifies the formula). -/
theorem C01_id_unique {c : Bool} {s : Fac} (r : Reach c s) {h h' : H} (v : Valid s h) (v' : Valid s h') (e : h.id = h'.id) : h = h' :=
  V.eq_of_id r.inv.core v v' e

/-- C01 (first half), full statement for histories in which `Minterm`/`Clause` were used as documented (distinct, non-complementary
literals): the same call made again any number of calls later returns the identical handle. -/
theorem C01_same_call_same_handle_partial {c : Bool} {s s2 : Fac} (r : PReach c s) {op : Op} (ok : op.Ok s)
    (hx : ∀ n, op ≠ .auxVar n) (pl : op.Plain c)
    (hb : (step s op).1.id < 2 ^ 28) (l : PLater (step s op).1 s2) (hb2 : (step s2 op).1.id < 2 ^ 28) :
    (step s2 op).2 = (step s op).2 := by
  have i := r.reach.inv
  have hc := r.reach.cons
  have g1 := step_good i ok hb
  have sh1 := step_shape i ok (hc ▸ pl) hb r.shape
  have g2 := l.later.good g1.inv
  have sh2 := l.shape g1.inv sh1
  have ex := g1.ext.trans g2.ext
  have ok2 : op.Ok s2 := by
    cases op with
    | var n => trivial
    | lit n p => trivial
    | not o => exact ex.V ok
    | impl l r => exact ⟨ex.V ok.1, ex.V ok.2⟩
    | equiv l r => exact ⟨ex.V ok.1, ex.V ok.2⟩
    | and ops => exact fun o ho => ex.V (ok o ho)
    | or ops => exact fun o ho => ex.V (ok o ho)
    | minterm ops => exact fun o ho => by obtain ⟨n, p, h⟩ := ok o ho; exact ⟨n, p, ex _ _ h⟩
    | clause ops => exact fun o ho => by obtain ⟨n, p, h⟩ := ok o ho; exact ⟨n, p, ex _ _ h⟩
    | cc cm k vs => exact fun o ho => by obtain ⟨n, h⟩ := ok o ho; exact ⟨n, ex _ _ h⟩
    | pbc cm k ts => exact fun o ho => by obtain ⟨n, p, h⟩ := ok o ho; exact ⟨n, p, ex _ _ h⟩
    | auxVar n => trivial
  obtain ⟨f, hf⟩ := OpTree.exists i ok s.conserve
  have d1 := step_tree i r.shape ok hb hf hx
  have hf2 : OpTree s2.nodes s2.conserve op f := by
    rw [g2.cons, g1.cons]; exact hf.ext ex
  have g3 := step_good g2.inv ok2 hb2
  have d2 := step_tree g2.inv sh2 ok2 hb2 hf2 hx
  exact Den.inj g3.inv.core f _ _ d2 (Den.ext (g2.ext.trans g3.ext) _ _ d1)

/-- C01 (first half) for arbitrary histories, for every constructor except `And`/`Or`. -/
theorem C01_same_call_same_handle_basic {c : Bool} {s s2 : Fac} (r : Reach c s) {op : Op} (ok : op.Ok s)
    (hx : ∀ n, op ≠ .auxVar n) (ha : ∀ ops, op ≠ .and ops) (ho : ∀ ops, op ≠ .or ops)
    (hb : (step s op).1.id < 2 ^ 28) (l : Later (step s op).1 s2) (hb2 : (step s2 op).1.id < 2 ^ 28) :
    (step s2 op).2 = (step s op).2 := by
  have i := r.inv
  have g1 := step_good i ok hb
  have g2 := l.good g1.inv
  have ex := g1.ext.trans g2.ext
  obtain ⟨f, hf⟩ := OpTree.exists i ok s.conserve
  have hf2 : OpTree s2.nodes s2.conserve op f := by
    rw [g2.cons, g1.cons]; exact hf.ext ex
  have tree : ∀ {s : Fac}, Inv s → op.Ok s → (step s op).1.id < 2 ^ 28 → OpTree s.nodes s.conserve op f →
      Den (step s op).1.nodes f (step s op).2 := by
    intro s i ok hb ht
    cases op with
    | and ops => exact absurd rfl (ha ops)
    | or ops => exact absurd rfl (ho ops)
    | var n => subst ht; simp only [Den]; exact (mkVar_good i n hb).2
    | lit n p => subst ht; simp only [Den]; exact (mkLit_good i n p hb).2
    | not o =>
      obtain ⟨g, h1, rfl⟩ := ht
      have := mkNot_good i ok hb
      exact (Den.ext this.1.ext _ _ h1).tNot this.1.inv.core this.2
    | impl l r =>
      obtain ⟨g, g', h1, h2, rfl⟩ := ht
      have := mkImpl_good i ok.1 ok.2 hb
      exact this.2.tree this.1.inv.core (Den.ext this.1.ext _ _ h1) (Den.ext this.1.ext _ _ h2)
    | equiv l r =>
      obtain ⟨g, g', h1, h2, rfl⟩ := ht
      have := mkEquiv_good i ok.1 ok.2 hb
      exact this.2.tree this.1.inv.core (Den.ext this.1.ext _ _ h1) (Den.ext this.1.ext _ _ h2)
    | minterm ops =>
      obtain ⟨g, h1, rfl⟩ := ht
      have := mkMinterm_good i ok hb
      exact this.2.tree (h1.ext this.1.ext)
    | clause ops =>
      obtain ⟨g, h1, rfl⟩ := ht
      have := mkClause_good i ok hb
      exact this.2.tree (h1.ext this.1.ext)
    | cc c k vs =>
      obtain ⟨g, h1, rfl⟩ := ht
      have := constructCC_good i (by omega) ok hb
      refine this.2.tree ?_
      have := map_some_ext this.1.ext (os := vs) (ms := g.map (fun x => .lit x true)) (by rw [List.map_map]; exact h1)
      rwa [List.map_map] at this
    | pbc c k ts =>
      obtain ⟨g, h1, rfl⟩ := ht
      have := mkPBC_good i ok hb
      exact this.2.tree this.1.inv.core (map_pair_ext this.1.ext h1)
    | auxVar n => exact absurd rfl (hx n)
  have ok2 : op.Ok s2 := by
    cases op with
    | var n => trivial
    | lit n p => trivial
    | not o => exact ex.V ok
    | impl l r => exact ⟨ex.V ok.1, ex.V ok.2⟩
    | equiv l r => exact ⟨ex.V ok.1, ex.V ok.2⟩
    | and ops => exact absurd rfl (ha ops)
    | or ops => exact absurd rfl (ho ops)
    | minterm ops => exact fun o ho => by obtain ⟨n, p, h⟩ := ok o ho; exact ⟨n, p, ex _ _ h⟩
    | clause ops => exact fun o ho => by obtain ⟨n, p, h⟩ := ok o ho; exact ⟨n, p, ex _ _ h⟩
    | cc cm k vs => exact fun o ho => by obtain ⟨n, h⟩ := ok o ho; exact ⟨n, ex _ _ h⟩
    | pbc cm k ts => exact fun o ho => by obtain ⟨n, p, h⟩ := ok o ho; exact ⟨n, p, ex _ _ h⟩
    | auxVar n => trivial
  have g3 := step_good g2.inv ok2 hb2
  exact Den.inj g3.inv.core f _ _ (tree g2.inv ok2 hb2 hf2) (Den.ext (g2.ext.trans g3.ext) _ _ (tree i ok hb hf))

/-- run a list of calls -/
def run (s : Fac) (ops : List Op) : Fac := ops.foldl (fun s op => (step s op).1) s

/-- the literals `a` (id 3) and `~a` (id 2) of a fresh factory -/
def hA : H := ⟨.lit, 3⟩
def hNA : H := ⟨.lit, 2⟩
def hB : H := ⟨.lit, 5⟩

/-- The full C01 claim is false for the code: `And(a, ~a)` returns `$false`; after `Minterm(a, ~a)` the identical call
returns a conjunction node instead. -/
theorem C01_same_call_counterexample :
    let s := run (init false) [.lit "a" false]
    (step s (.and [hA, hNA])).2 = cFalse ∧
    (step (step (step s (.and [hA, hNA])).1 (.minterm [hA, hNA])).1 (.and [hA, hNA])).2 ≠ cFalse := by
  decide +kernel

/-- … and likewise `And(a, a)` is `a` before and a two-operand conjunction after `Minterm(a, a)`. -/
theorem C01_same_call_counterexample' :
    let s := run (init false) [.lit "a" true]
    (step s (.and [hA, hA])).2 = hA ∧
    (step (step (step s (.and [hA, hA])).1 (.minterm [hA, hA])).1 (.and [hA, hA])).2 ≠ hA := by
  decide +kernel

/-- the order of operands matters: `a & b` and `b & a` get different handles (the factory does not sort operands) -/
theorem C01_not_commutative :
    let s := run (init false) [.var "a", .var "b"]
    (step s (.and [hA, hB])).2 ≠ (step (step s (.and [hA, hB])).1 (.and [hB, hA])).2 := by
  decide +kernel

/-! ## C03 — immutability -/

/-- C03: whatever formula a handle stands for, it stands for the same formula in all later states — and for no other. -/
theorem C03_immutable {c : Bool} {s s' : Fac} (r : Reach c s) (l : Later s s') {f : Fm String} {h : H} (d : Den s.nodes f h) :
    Den s'.nodes f h ∧ ∀ g, Den s'.nodes g h → g = f := by
  have g := l.good r.inv
  have d' := Den.ext g.ext f h d
  exact ⟨d', fun k dk => Den.det g.inv.core.ne_const k f h dk d'⟩

/-- C03: the table entries themselves (sort, operands) never change. -/
theorem C03_nodes_immutable {c : Bool} {s s' : Fac} (r : Reach c s) (l : Later s s') {h : H} {n : Node} (d : s.nodes h = some n) :
    s'.nodes h = some n := (l.good r.inv).ext h n d

/-! ## C04 — negation -/

theorem IsNot.functional {N : Nodes} {id : Nat} (c : Core N id) {o h o' : H} (n : IsNot N o h) (n' : IsNot N h o') : o' = o := by
  have hv : V N o := by
    cases n with
    | fls h1 _ => exact .inl h1
    | tru h1 _ => exact .inr (.inl h1)
    | lit nm p h1 _ => exact .inr (.inr (by rw [h1]; rfl))
    | down h1 _ => exact .inr (.inr (by rw [h1]; rfl))
    | up _ h2 => exact .inr (.inr h2)
  obtain ⟨f, d⟩ := Den.total c o hv
  have d1 := d.tNot c n
  have d2 := d1.tNot c n'
  rw [tNot_symm c d1 d rfl] at d2
  exact Den.inj c f _ _ d2 d

theorem IsNot.ne {N : Nodes} {id : Nat} (c : Core N id) {o h : H} (n : IsNot N o h) : h ≠ o := by
  rintro rfl
  have hv : V N h := by
    cases n with
    | fls h1 _ => exact .inl h1
    | tru h1 _ => exact .inr (.inl h1)
    | lit nm p h1 _ => exact .inr (.inr (by rw [h1]; rfl))
    | down h1 _ => exact .inr (.inr (by rw [h1]; rfl))
    | up _ h2 => exact .inr (.inr h2)
  obtain ⟨f, d⟩ := Den.total c h hv
  exact tNot_ne_self c d (Den.det c.ne_const _ _ _ d (d.tNot c n))

/-- C04: `Not(Not(f)) = f` and `Not(f) ≠ f`, in any reachable state, even if other calls happen in between. -/
theorem C04_not_involution {c : Bool} {s s' : Fac} (r : Reach c s) {f : H} (hf : Valid s f)
    (hb : (mkNot s f).1.id < 2 ^ 28) (l : Later (mkNot s f).1 s') (hb' : (mkNot s' (mkNot s f).2).1.id < 2 ^ 28) :
    (mkNot s' (mkNot s f).2).2 = f ∧ (mkNot s f).2 ≠ f := by
  have i := r.inv
  have h1 := mkNot_good i hf hb
  have g2 := l.good h1.1.inv
  have hv := step_valid i (op := .not f) hf hb
  have h3 := mkNot_good g2.inv (g2.ext.V hv) hb'
  have g := g2.trans h3.1
  have n1 : IsNot (mkNot s' (mkNot s f).2).1.nodes f (mkNot s f).2 := by
    cases h1.2 with
    | fls a b => exact .fls a b
    | tru a b => exact .tru a b
    | lit nm p a b => exact .lit nm p (g.ext _ _ a) (g.ext _ _ b)
    | down a b => exact .down (g.ext _ _ a) (g.ext.some b)
    | up a b => exact .up (g.ext _ _ a) (g.ext.some b)
  exact ⟨IsNot.functional h3.1.inv.core n1 h3.2, IsNot.ne h1.1.inv.core h1.2⟩

/-- C04 for literals: the negation of a literal is the literal of the same variable with the other phase. -/
theorem C04_not_literal {c : Bool} {s : Fac} (r : Reach c s) {f : H} {x : String} {p : Bool} (hf : s.nodes f = some (.lit x p))
    (hb : (mkNot s f).1.id < 2 ^ 28) :
    (mkNot s f).1.nodes (mkNot s f).2 = some (.lit x (!p)) ∧ (mkNot s f).2.id = negId f.id := by
  have i := r.inv
  have h1 := mkNot_good i (.inr (.inr (by rw [hf]; rfl))) hb
  have d : Den (mkNot s f).1.nodes (.lit ⟨x, p⟩) f := by simp only [Den]; exact h1.1.ext _ _ hf
  have d1 := d.tNot h1.1.inv.core h1.2
  refine ⟨by simpa [tNot, Den, Lit.neg] using d1, (Den.compl_iff h1.1.inv.core d1 d).1 rfl⟩

/-! ## C05 — shape of And/Or -/

/-- C05, every history: a conjunction has at least two operands, none of them a constant or a conjunction. -/
theorem C05_and_shape {c : Bool} {s : Fac} (r : Reach c s) {h : H} {ops : List H} (hn : s.nodes h = some (.and ops)) :
    2 ≤ ops.length ∧ ∀ o ∈ ops, Valid s o ∧ o.sort ≠ .fls ∧ o.sort ≠ .tru ∧ o.sort ≠ .and := by
  have i := r.inv
  have hok := i.core.ok hn
  refine ⟨hok.1, fun o ho => ⟨.inr (.inr (hok.2 o ho).1), ?_, ?_, (hok.2 o ho).2.2⟩⟩
  · exact (i.core.sort_ne (hok.2 o ho).1).1
  · exact (i.core.sort_ne (hok.2 o ho).1).2

theorem C05_or_shape {c : Bool} {s : Fac} (r : Reach c s) {h : H} {ops : List H} (hn : s.nodes h = some (.or ops)) :
    2 ≤ ops.length ∧ ∀ o ∈ ops, Valid s o ∧ o.sort ≠ .fls ∧ o.sort ≠ .tru ∧ o.sort ≠ .or := by
  have i := r.inv
  have hok := i.core.ok hn
  refine ⟨hok.1, fun o ho => ⟨.inr (.inr (hok.2 o ho).1), ?_, ?_, (hok.2 o ho).2.2⟩⟩
  · exact (i.core.sort_ne (hok.2 o ho).1).1
  · exact (i.core.sort_ne (hok.2 o ho).1).2

/-- C05, histories with documented use of `Minterm`/`Clause` only (in particular without them): operands are pairwise different
and, unless trivial operands are conserved, no operand is the negation of another. -/
theorem C05_distinct {c : Bool} {s : Fac} (r : PReach c s) {h : H} {ops : List H}
    (hn : s.nodes h = some (.and ops) ∨ s.nodes h = some (.or ops)) :
    ops.Nodup ∧ (c = false → ∀ a ∈ ops, ∀ b ∈ ops, ∀ f, Den s.nodes f a → ¬ Den s.nodes (.not f) b ∧
      ∀ x p, f = .lit ⟨x, p⟩ → ¬ Den s.nodes (.lit ⟨x, !p⟩) b) := by
  have hd : Distinct s.conserve ops := by
    rcases hn with hn | hn
    · exact r.shape.1 h ops hn
    · exact r.shape.2 h ops hn
  refine ⟨hd.1, fun hc a ha b hb f df => ⟨fun dn => ?_, ?_⟩⟩
  · have e := hd.2 (by rw [r.reach.cons, hc]) b hb a ha
    simp only [Den] at dn
    obtain ⟨o, h1, h2⟩ := dn
    have := Den.inj r.reach.inv.core _ _ _ h2 df
    subst this
    have hok := r.reach.inv.core.ok h1
    have hp := (r.reach.inv.core.par h1).2 rfl
    have h3 : b.id + 1 = o.id := hok.1
    apply e
    rw [negId_odd (by omega)]; omega
  · rintro x p rfl dn
    have e := hd.2 (by rw [r.reach.cons, hc]) b hb a ha
    exact e ((Den.compl_iff r.reach.inv.core dn df).1 rfl)

/-- Without that restriction the second half of C05 fails: `Minterm(a, ~a)` followed by `And(a, ~a)`. -/
theorem C05_counterexample :
    let s := run (init false) [.lit "a" false, .minterm [hA, hNA]]
    (step s (.and [hA, hNA])).1.nodes (step s (.and [hA, hNA])).2 = some (.and [hA, hNA]) := by
  decide +kernel

/-! ## Refinement to the tree constructors (basis of all later models) -/

/-- Every call returns the handle of exactly the tree the corresponding tree constructor computes from the argument trees. -/
theorem factory_refines_tree {c : Bool} {s : Fac} (r : PReach c s) {op : Op} (ok : op.Ok s) (hb : (step s op).1.id < 2 ^ 28)
    {f : Fm String} (ht : OpTree s.nodes c op f) (hx : ∀ n, op ≠ .auxVar n) : Den (step s op).1.nodes f (step s op).2 :=
  step_tree r.reach.inv r.shape ok hb (r.reach.cons ▸ ht) hx

/-! ## Concrete cases meeting the hypotheses -/

/-- a state with variables a, b, the literal ~a and the conjunction (a & b) -/
def exOps : List Op := [.var "a", .var "b", .lit "a" false, .and [hA, hB]]
def exS : Fac := run (init false) exOps
def hAB : H := ⟨.and, 7⟩

theorem exS_reach : PReach false exS := by
  refine .step (op := .and [hA, hB]) (.step (op := .lit "a" false) (.step (op := .var "b") (.step (op := .var "a") .init trivial trivial ?_) trivial trivial ?_)
    trivial trivial ?_) ?_ trivial ?_
  · decide +kernel
  · decide +kernel
  · decide +kernel
  · intro o ho
    simp at ho
    rcases ho with rfl | rfl
    · exact .inr (.inr (by decide +kernel))
    · exact .inr (.inr (by decide +kernel))
  · decide +kernel

example : exS.nodes hAB = some (.and [hA, hB]) := by decide +kernel
example : Den exS.nodes (.and [.lit ⟨"a", true⟩, .lit ⟨"b", true⟩]) hAB := by
  simp only [Den]
  exact ⟨[hA, hB], by decide +kernel, by simp only [DenL, Den]; exact ⟨by decide +kernel, by decide +kernel, trivial⟩⟩
/-- C02 on a call that simplifies: `And(a & b, ~a)` is `$false` by the complement check. -/
example : (step exS (.and [hAB, hNA])).2 = cFalse := by decide +kernel
example : (Op.and [hAB, hNA]).Ok exS := by
  intro o ho
  simp at ho
  rcases ho with rfl | rfl
  · exact .inr (.inr (by decide +kernel))
  · exact .inr (.inr (by decide +kernel))
example : (step exS (.and [hAB, hNA])).1.id < 2 ^ 28 := by decide +kernel
/-- C04: negating the conjunction uses the even id below it. -/
example : (mkNot exS hAB).2 = ⟨.not, 6⟩ ∧ (mkNot (mkNot exS hAB).1 ⟨.not, 6⟩).2 = hAB := by decide +kernel
/-- C01: the same conjunction again, via a nested conjunction with duplicate operands -/
example : (step exS (.and [hAB, hA])).2 = hAB := by decide +kernel

end Verif.Factory
