import Verif.Factory.Den
import Verif.Factory.Tree
/-
The handle-level constructors compute exactly the tree-level constructors of `Verif.Factory.Tree` ("plain" histories:
`Minterm`/`Clause` were only called with distinct, non-complementary literals, as their documentation asks for).
-/
namespace Verif.Factory
open Verif Verif.Tree

theorem Den.const_f {N : Nodes} {id : Nat} (c : Core N id) {f : Fm String} (d : Den N f cFalse) : f = .fls :=
  Den.det c.ne_const f _ _ d (show Den N .fls cFalse from by simp [Den])
theorem Den.const_t {N : Nodes} {id : Nat} (c : Core N id) {f : Fm String} (d : Den N f cTrue) : f = .tru :=
  Den.det c.ne_const f _ _ d (show Den N .tru cTrue from by simp [Den])

theorem Den.eq_fls {N : Nodes} {id : Nat} (c : Core N id) {f : Fm String} {h : H} (d : Den N f h) : f = .fls ↔ h = cFalse :=
  ⟨fun e => by subst e; simpa [Den] using d, fun e => by subst e; exact d.const_f c⟩
theorem Den.eq_tru {N : Nodes} {id : Nat} (c : Core N id) {f : Fm String} {h : H} (d : Den N f h) : f = .tru ↔ h = cTrue :=
  ⟨fun e => by subst e; simpa [Den] using d, fun e => by subst e; exact d.const_t c⟩
theorem Den.eq_iff {N : Nodes} {id : Nat} (c : Core N id) {f g : Fm String} {h k : H} (d : Den N f h) (d' : Den N g k) :
    f = g ↔ h = k :=
  ⟨fun e => by subst e; exact Den.inj c _ _ _ d d', fun e => by subst e; exact Den.det c.ne_const _ _ _ d d'⟩

/-- the top symbol of the tree follows the node -/
theorem Den.of_lit {N : Nodes} {id : Nat} (c : Core N id) {f : Fm String} {h : H} (d : Den N f h) {n p} (e : N h = some (.lit n p)) :
    f = .lit ⟨n, p⟩ := Den.det c.ne_const f _ _ d (show Den N (.lit ⟨n, p⟩) h from by simp [Den, e])

theorem Den.of_not {N : Nodes} {id : Nat} (c : Core N id) {f : Fm String} {h o : H} (d : Den N f h) (e : N h = some (.not o)) :
    ∃ g, f = .not g ∧ Den N g o := by
  have hv : V N o := .inr (.inr (c.ok e).2.1)
  obtain ⟨g, hg⟩ := Den.total c o hv
  exact ⟨g, Den.det c.ne_const f _ _ d (show Den N (.not g) h from by simp only [Den]; exact ⟨o, e, hg⟩), hg⟩

theorem Den.tNot {N : Nodes} {id : Nat} (c : Core N id) {f : Fm String} {o h : H} (d : Den N f o) (n : IsNot N o h) :
    Den N (tNot f) h := by
  cases n with
  | fls h1 h2 => subst h1; subst h2; rw [d.const_f c]; simp [Tree.tNot, Den]
  | tru h1 h2 => subst h1; subst h2; rw [d.const_t c]; simp [Tree.tNot, Den]
  | lit nm p h1 h2 => rw [d.of_lit c h1]; simp [Tree.tNot, Den, Lit.neg, h2]
  | down h1 h2 =>
    obtain ⟨g, rfl, hg⟩ := d.of_not c h1
    exact hg
  | up h1 h2 =>
    have hok := c.ok h1
    have hne := c.ne_const o
    obtain ⟨m, hm⟩ := Option.isSome_iff_exists.1 h2
    have hc := hne m hm
    have hs := c.sort hm
    have key : Tree.tNot f = .not f := by
      cases f with
      | fls => simp [Den] at d; exact absurd d hc.1
      | tru => simp [Den] at d; exact absurd d hc.2
      | lit l => simp only [Den] at d; rw [hm] at d; cases d; exact absurd hs.symm hok.2.2.1
      | not g =>
        simp only [Den] at d
        obtain ⟨o', d1, _⟩ := d
        rw [hm] at d1; cases d1; exact absurd hs.symm hok.2.2.2
      | _ => rfl
    rw [key]; simp only [Den]; exact ⟨o, h1, d⟩

/-- ids differing in the last bit ⇔ one tree is the negation of the other -/
theorem Den.compl_iff {N : Nodes} {id : Nat} (c : Core N id) {f g : Fm String} {a b : H} (d : Den N f a) (d' : Den N g b) :
    f = Tree.tNot g ↔ a.id = negId b.id := by
  constructor
  · intro e
    subst e
    cases g with
    | fls => simp only [Tree.tNot, Den] at d d'; subst d; subst d'; decide
    | tru => simp only [Tree.tNot, Den] at d d'; subst d; subst d'; decide
    | lit l =>
      obtain ⟨nm, p⟩ := l
      simp only [Tree.tNot, Den, Lit.neg] at d d'
      cases p with
      | true =>
        have hok := c.ok d
        have hpar := (c.par d).2 rfl
        simp only [Bool.not_true, NodeOk] at hok
        have := c.inj hok d'
        rw [← this, negId_odd (by simp only; omega)]; rfl
      | false =>
        have hok := c.ok d'
        have hpar := (c.par d').2 rfl
        simp only [NodeOk] at hok
        have := c.inj hok d
        rw [← this, negId_even hpar]
    | not g' =>
      simp only [Den] at d'
      obtain ⟨o, d1, d2⟩ := d'
      simp only [Tree.tNot] at d
      have : a = o := Den.inj c _ _ _ d d2
      subst this
      have hok := c.ok d1
      have hpar := (c.par d1).2 rfl
      rw [negId_even hpar]; exact hok.1.symm
    | _ =>
      simp only [Tree.tNot] at d
      rw [Den] at d
      obtain ⟨o, d1, d2⟩ := d
      have := Den.inj c _ _ _ d2 d'
      subst this
      have hok := c.ok d1
      have hpar := (c.par d1).2 rfl
      have : a.id + 1 = o.id := hok.1
      rw [negId_odd (by omega)]; omega
  · intro e
    have := (V.compl c d.valid d'.valid e).1
    exact Den.det c.ne_const f _ _ d (d'.tNot c this)

theorem DenL.mem {N : Nodes} : ∀ {fs : List (Fm String)} {hs : List H}, DenL N fs hs →
    (∀ f ∈ fs, ∃ h ∈ hs, Den N f h) ∧ (∀ h ∈ hs, ∃ f ∈ fs, Den N f h)
  | [], hs, d => by rw [DenL_nil] at d; subst d; simp
  | f :: fs, hs, d => by
    rw [DenL_cons] at d
    obtain ⟨h, hs', rfl, d1, d2⟩ := d
    have := DenL.mem d2
    constructor
    · intro g hg
      rcases List.mem_cons.1 hg with rfl | hg
      · exact ⟨h, by simp, d1⟩
      · obtain ⟨k, hk, hd⟩ := this.1 g hg; exact ⟨k, by simp [hk], hd⟩
    · intro k hk
      rcases List.mem_cons.1 hk with rfl | hk
      · exact ⟨f, by simp, d1⟩
      · obtain ⟨g, hg, hd⟩ := this.2 k hk; exact ⟨g, by simp [hg], hd⟩

theorem DenL.append {N : Nodes} : ∀ {fs gs : List (Fm String)} {hs ks : List H}, DenL N fs hs → DenL N gs ks →
    DenL N (fs ++ gs) (hs ++ ks)
  | [], gs, hs, ks, d, d' => by rw [DenL_nil] at d; subst d; exact d'
  | f :: fs, gs, hs, ks, d, d' => by
    rw [DenL_cons] at d
    obtain ⟨h, hs', rfl, d1, d2⟩ := d
    exact ⟨d1, DenL.append d2 d'⟩

theorem DenL.ext {N N' : Nodes} (e : Ext N N') {fs : List (Fm String)} {hs : List H} (d : DenL N fs hs) : DenL N' fs hs :=
  DenL.imp (fun f _ h => Den.ext e f h) d

theorem DenL.length {N : Nodes} : ∀ {fs : List (Fm String)} {hs : List H}, DenL N fs hs → fs.length = hs.length
  | [], hs, d => by rw [DenL_nil] at d; subst d; rfl
  | f :: fs, hs, d => by
    rw [DenL_cons] at d
    obtain ⟨h, hs', rfl, d1, d2⟩ := d
    simp [DenL.length d2]

theorem DenL.nodup {N : Nodes} {id : Nat} (c : Core N id) : ∀ {fs : List (Fm String)} {hs : List H}, DenL N fs hs →
    (fs.Nodup ↔ hs.Nodup)
  | [], hs, d => by rw [DenL_nil] at d; subst d; simp
  | f :: fs, hs, d => by
    rw [DenL_cons] at d
    obtain ⟨h, hs', rfl, d1, d2⟩ := d
    rw [List.nodup_cons, List.nodup_cons, DenL.nodup c d2]
    have : f ∈ fs ↔ h ∈ hs' := by
      constructor
      · intro hf
        obtain ⟨k, hk, hd⟩ := d2.mem.1 f hf
        have := Den.inj c _ _ _ d1 hd
        rw [this]; exact hk
      · intro hh
        obtain ⟨g, hg, hd⟩ := d2.mem.2 h hh
        have := Den.det c.ne_const _ _ _ d1 hd
        rw [this]; exact hg
    rw [this]

/-- operands are distinct and (unless trivial operands are conserved) not complementary -/
def Distinct (cons : Bool) (ops : List H) : Prop :=
  ops.Nodup ∧ (cons = false → ∀ a ∈ ops, ∀ b ∈ ops, a.id ≠ negId b.id)

/-- the same on trees -/
def TDistinct (cons : Bool) (fs : List (Fm String)) : Prop :=
  fs.Nodup ∧ (cons = false → ∀ f ∈ fs, tNot f ∉ fs)

theorem Distinct.tree {N : Nodes} {id : Nat} (c : Core N id) {cons : Bool} {fs : List (Fm String)} {ops : List H}
    (d : DenL N fs ops) (h : Distinct cons ops) : TDistinct cons fs := by
  refine ⟨(d.nodup c).2 h.1, ?_⟩
  intro hc f hf hn
  obtain ⟨a, ha, da⟩ := d.mem.1 _ hn
  obtain ⟨b, hb, db⟩ := d.mem.1 _ hf
  exact h.2 hc a ha b hb ((Den.compl_iff c da db).1 rfl)

theorem Distinct.of_tree {N : Nodes} {id : Nat} (c : Core N id) {cons : Bool} {fs : List (Fm String)} {ops : List H}
    (d : DenL N fs ops) (h : TDistinct cons fs) : Distinct cons ops := by
  refine ⟨(d.nodup c).1 h.1, ?_⟩
  intro hc a ha b hb e
  obtain ⟨f, hf, df⟩ := d.mem.2 _ ha
  obtain ⟨g, hg, dg⟩ := d.mem.2 _ hb
  have := (Den.compl_iff c df dg).2 e
  exact h.2 hc g hg (this ▸ hf)

/-- adding an operand to a distinct list -/
theorem TDistinct.snoc {cons : Bool} {fs : List (Fm String)} {f : Fm String} (h : TDistinct cons fs) (h1 : f ∉ fs)
    (hc : cons = false → tNot f ∉ fs) (h2 : f ≠ tNot f) (hinv : ∀ g ∈ fs, tNot g = f → tNot f = g) : TDistinct cons (fs ++ [f]) := by
  refine ⟨?_, ?_⟩
  · rw [List.nodup_append]
    refine ⟨h.1, by simp, ?_⟩
    intro a ha b hb
    simp at hb; subst hb; rintro rfl; exact h1 ha
  · intro hcc g hg hn
    simp only [List.mem_append, List.mem_singleton] at hg hn
    rcases hg with hg | rfl
    · rcases hn with hn | hn
      · exact h.2 hcc g hg hn
      · exact hc hcc (hinv g hg hn ▸ hg)
    · rcases hn with hn | hn
      · exact hc hcc hn
      · exact h2 hn.symm

/-! ### And -/

theorem Den.of_and {N : Nodes} {id : Nat} (c : Core N id) {f : Fm String} {h : H} {os : List H} (d : Den N f h)
    (e : N h = some (.and os)) : ∃ gs, f = .and gs ∧ DenL N gs os := by
  have hv : ∀ o ∈ os, ∃ g, Den N g o := fun o ho => Den.total c o (.inr (.inr ((c.ok e).2 o ho).1))
  obtain ⟨gs, hg⟩ := exists_DenL hv
  exact ⟨gs, Den.det c.ne_const f _ _ d (show Den N (.and gs) h from by simp only [Den]; exact ⟨os, e, hg⟩), hg⟩

theorem Den.sort_and {N : Nodes} {id : Nat} (c : Core N id) {f : Fm String} {h : H} (d : Den N f h) (hs : h.sort = .and) :
    ∃ os, N h = some (.and os) := by
  rcases d.valid with rfl | rfl | hv
  · exact absurd hs (by decide)
  · exact absurd hs (by decide)
  · obtain ⟨n, hn⟩ := Option.isSome_iff_exists.1 hv
    have := c.sort hn
    rw [hs] at this
    cases n <;> simp [Node.sort] at this
    exact ⟨_, hn⟩

/-- the accumulator of the handle loop and of the tree loop agree -/
structure RAnd (s : Fac) (a : Acc) (t : List (Fm String)) : Prop where
  ids : ∀ i, i ∈ a.ids ↔ ∃ o ∈ a.ops, o.id = i
  den : DenL s.nodes t a.ops
  dis : TDistinct s.conserve t

/-- results of the two loops agree -/
inductive ResAnd (s : Fac) : Option Acc → Option (List (Fm String)) → Prop
  | none : ResAnd s none none
  | some {a t} : RAnd s a t → ResAnd s (some a) (some t)

theorem tNot_ne_self {N : Nodes} {id : Nat} (c : Core N id) {f : Fm String} {h : H} (d : Den N f h) : f ≠ tNot f := by
  intro e
  have := (Den.compl_iff c d d).1 e
  rcases negId_cases h.id with ⟨_, h2⟩ | ⟨_, h2⟩ <;> omega
theorem tNot_symm {N : Nodes} {id : Nat} (c : Core N id) {f g : Fm String} {h k : H} (d : Den N f h) (d' : Den N g k)
    (e : tNot g = f) : tNot f = g := by
  have := (Den.compl_iff c d d').1 e.symm
  refine ((Den.compl_iff c d' d).2 ?_).symm
  rcases negId_cases h.id with ⟨_, h2⟩ | ⟨_, h2⟩ <;> rcases negId_cases k.id with ⟨_, h4⟩ | ⟨_, h4⟩ <;> omega

theorem addFormulaAnd_ref {s : Fac} (i : Inv s) {a : Acc} {t : List (Fm String)} (r : RAnd s a t) {f : Fm String} {h : H}
    (d : Den s.nodes f h) : ResAnd s (addFormulaAnd s a h) (tAddAnd s.conserve t f) := by
  have c := i.core
  unfold addFormulaAnd tAddAnd
  by_cases h1 : h = cTrue
  · rw [if_pos h1, if_pos ((d.eq_tru c).2 h1)]; exact .some r
  rw [if_neg h1, if_neg (fun e => h1 ((d.eq_tru c).1 e))]
  have hmem : h.id ∈ a.ids ↔ f ∈ t := by
    rw [r.ids]
    constructor
    · rintro ⟨o, ho, e⟩
      obtain ⟨g, hg, dg⟩ := r.den.mem.2 o ho
      have : o = h := V.eq_of_id c dg.valid d.valid e
      subst this
      exact Den.det c.ne_const _ _ _ dg d ▸ hg
    · intro hf
      obtain ⟨o, ho, dO⟩ := r.den.mem.1 f hf
      exact ⟨o, ho, by rw [Den.inj c _ _ _ dO d]⟩
  have hcomp : containsComplement s a.ids h = true ↔ (s.conserve = false ∧ tNot f ∈ t) := by
    unfold containsComplement
    cases hc : s.conserve with
    | true => simp
    | false =>
      simp only [Bool.false_eq_true, if_false, decide_eq_true_eq, true_and]
      rw [r.ids]
      constructor
      · rintro ⟨o, ho, e⟩
        obtain ⟨g, hg, dg⟩ := r.den.mem.2 o ho
        rw [← (Den.compl_iff c dg d).2 e]; exact hg
      · intro hf
        obtain ⟨o, ho, dO⟩ := r.den.mem.1 _ hf
        exact ⟨o, ho, (Den.compl_iff c dO d).1 rfl⟩
  by_cases h2 : h = cFalse ∨ containsComplement s a.ids h = true
  · rw [if_pos h2, if_pos (h2.imp (d.eq_fls c).2 hcomp.1)]; exact .none
  have h2' : ¬ (f = .fls ∨ (s.conserve = false ∧ tNot f ∈ t)) := fun e => h2 (e.imp (d.eq_fls c).1 hcomp.2)
  rw [if_neg h2, if_neg h2']
  by_cases h3 : h.id ∈ a.ids
  · rw [if_pos h3, if_pos (hmem.1 h3)]
    split
    · exact .some r
    · exact .some ⟨r.ids, r.den, r.dis⟩
  · rw [if_neg h3, if_neg (fun e => h3 (hmem.2 e))]
    have r' : RAnd s { a with ids := h.id :: a.ids, ops := a.ops ++ [h] } (t ++ [f]) := by
      refine ⟨?_, r.den.append ⟨d, trivial⟩, ?_⟩
      · intro j
        simp only [List.mem_cons, List.mem_append, r.ids j]
        constructor
        · rintro (rfl | ⟨o, ho, rfl⟩)
          · exact ⟨h, .inr (.inl rfl), rfl⟩
          · exact ⟨o, .inl ho, rfl⟩
        · rintro ⟨o, ho | ho, rfl⟩
          · exact .inr ⟨o, ho, rfl⟩
          · rcases ho with rfl | ho
            · exact .inl rfl
            · simp at ho
      · refine r.dis.snoc (fun e => h3 (hmem.2 e)) (fun hc e => h2' (.inr ⟨hc, e⟩)) (tNot_ne_self c d) ?_
        intro g hg e
        obtain ⟨o, ho, dO⟩ := r.den.mem.1 g hg
        exact tNot_symm c d dO e
    split
    · exact .some r'
    · exact .some ⟨r'.ids, r'.den, r'.dis⟩

theorem foldAddAnd_ref {s : Fac} (i : Inv s) : ∀ {fs : List (Fm String)} {hs : List H} {a : Acc} {t : List (Fm String)},
    DenL s.nodes fs hs → RAnd s a t →
    ResAnd s (foldOpt (addFormulaAnd s) a hs) (foldOpt (tAddAnd s.conserve) t fs)
  | [], hs, a, t, d, r => by rw [DenL_nil] at d; subst d; exact .some r
  | f :: fs, hs, a, t, d, r => by
    rw [DenL_cons] at d
    obtain ⟨h, hs', rfl, d1, d2⟩ := d
    have h1 := addFormulaAnd_ref i r d1
    simp only [foldOpt]
    revert h1
    generalize addFormulaAnd s a h = x
    generalize tAddAnd s.conserve t f = y
    intro h1
    cases h1 with
    | none => exact .none
    | some r' => exact foldAddAnd_ref i d2 r'

theorem stepAnd_ref {s : Fac} (i : Inv s) {a : Acc} {t : List (Fm String)} (r : RAnd s a t) {f : Fm String} {h : H}
    (d : Den s.nodes f h) :
    ResAnd s (if h.sort = .and then foldOpt (addFormulaAnd s) a (andOps s h) else addFormulaAnd s a h)
      (tStepAnd s.conserve t f) := by
  by_cases hs : h.sort = .and
  · rw [if_pos hs]
    obtain ⟨os, hos⟩ := d.sort_and i.core hs
    obtain ⟨gs, rfl, hg⟩ := d.of_and i.core hos
    have : andOps s h = os := by simp [andOps, hos]
    rw [this]
    exact foldAddAnd_ref i hg r
  · rw [if_neg hs]
    have key : tStepAnd s.conserve t f = tAddAnd s.conserve t f := by
      cases f with
      | and gs =>
        simp only [Den] at d
        obtain ⟨os, h1, _⟩ := d
        exact absurd (i.core.sort h1).symm hs
      | _ => rfl
    rw [key]
    exact addFormulaAnd_ref i r d

theorem condenseAnd_ref {s : Fac} (i : Inv s) : ∀ {fs : List (Fm String)} {hs : List H} {a : Acc} {t : List (Fm String)},
    DenL s.nodes fs hs → RAnd s a t →
    ResAnd s (foldOpt (fun a f => if f.sort = .and then foldOpt (addFormulaAnd s) a (andOps s f) else addFormulaAnd s a f) a hs)
      (foldOpt (tStepAnd s.conserve) t fs)
  | [], hs, a, t, d, r => by rw [DenL_nil] at d; subst d; exact .some r
  | f :: fs, hs, a, t, d, r => by
    rw [DenL_cons] at d
    obtain ⟨h, hs', rfl, d1, d2⟩ := d
    have h1 := stepAnd_ref i r d1
    simp only [foldOpt]
    revert h1
    generalize (if h.sort = .and then foldOpt (addFormulaAnd s) a (andOps s h) else addFormulaAnd s a h) = x
    generalize tStepAnd s.conserve t f = y
    intro h1
    cases h1 with
    | none => exact .none
    | some r' => exact condenseAnd_ref i d2 r'

/-- a list of distinct operands without constants and conjunctions is left alone by `And` -/
theorem tAnd_fix_aux {cons : Bool} : ∀ (fs acc : List (Fm String)), TDistinct cons (acc ++ fs) →
    (∀ f ∈ fs, f ≠ .tru ∧ f ≠ .fls ∧ ∀ gs, f ≠ .and gs) → foldOpt (tStepAnd cons) acc fs = some (acc ++ fs)
  | [], acc, _, _ => by simp [foldOpt]
  | f :: fs, acc, hd, hf => by
    have hff := hf f (by simp)
    have h1 : f ∉ acc := by
      have := (List.nodup_append.1 hd.1).2.2
      intro h; exact this f h f (by simp) rfl
    have key : tStepAnd cons acc f = some (acc ++ [f]) := by
      have : tStepAnd cons acc f = tAddAnd cons acc f := by
        cases f with
        | and gs => exact absurd rfl (hff.2.2 gs)
        | _ => rfl
      rw [this]
      unfold tAddAnd
      rw [if_neg hff.1, if_neg, if_neg h1]
      rintro (e | ⟨e1, e2⟩)
      · exact hff.2.1 e
      · exact hd.2 e1 f (by simp) (by simp [e2])
    simp only [foldOpt, key]
    have := tAnd_fix_aux fs (acc ++ [f]) (by simpa using hd) (fun g hg => hf g (by simp [hg]))
    rw [this]; simp

theorem tAnd_fix {cons : Bool} {fs : List (Fm String)} (hd : TDistinct cons fs) (hl : 2 ≤ fs.length)
    (hf : ∀ f ∈ fs, f ≠ .tru ∧ f ≠ .fls ∧ ∀ gs, f ≠ .and gs) : tAnd cons fs = .and fs := by
  unfold tAnd
  rw [tAnd_fix_aux fs [] (by simpa using hd) hf]
  match fs, hl with
  | _ :: _ :: _, _ => rfl

theorem AndPost.tree {s s' : Fac} (i : Inv s) (g : Good s s') {fs : List (Fm String)} {ops : List H} {h : H}
    (hsh : ∀ h ops, s.nodes h = some (.and ops) → Distinct s.conserve ops)
    (d : DenL s.nodes fs ops) (p : AndPost s s'.nodes ops h) : Den s'.nodes (tAnd s.conserve fs) h := by
  rcases p with p | p
  · have hok := i.core.ok p
    have : tAnd s.conserve fs = .and fs := by
      refine tAnd_fix ((hsh _ _ p).tree i.core d) (by rw [d.length]; exact hok.1) ?_
      intro f hf
      obtain ⟨o, ho, dO⟩ := d.mem.1 f hf
      have hk := hok.2 o ho
      obtain ⟨n, hn⟩ := Option.isSome_iff_exists.1 hk.1
      have hc := i.core.ne_const o n hn
      refine ⟨fun e => hc.2 ((dO.eq_tru i.core).1 e), fun e => hc.1 ((dO.eq_fls i.core).1 e), ?_⟩
      rintro gs rfl
      simp only [Den] at dO
      obtain ⟨os, h1, _⟩ := dO
      exact hk.2.2 (i.core.sort h1).symm
    rw [this]
    simp only [Den]
    exact ⟨ops, g.ext _ _ p, d.ext g.ext⟩
  · have r := condenseAnd_ref i (a := ⟨[], [], true⟩) (t := []) d ⟨by simp, trivial, by simp [TDistinct]⟩
    unfold condenseAnd at p
    unfold tAnd
    revert p r
    generalize foldOpt (fun a f => if f.sort = .and then foldOpt (addFormulaAnd s) a (andOps s f) else addFormulaAnd s a f) _ ops = x
    generalize foldOpt (tStepAnd s.conserve) [] fs = y
    intro p r
    cases r with
    | none => simpa [Den] using p
    | @some a t r =>
      have hl := r.den.length
      match t, ha : a.ops, r.den, hl with
      | [], [], _, _ => simpa [ha, Den] using p
      | [f], [o], dd, _ =>
        simp only [ha] at p
        subst p
        exact Den.ext g.ext _ _ dd.1
      | f1 :: f2 :: ft, o1 :: o2 :: ot, dd, _ =>
        simp only [ha] at p
        simp only [Den]
        exact ⟨_, p, dd.ext g.ext⟩

theorem condenseAnd_distinct {s : Fac} (i : Inv s) {ops : List H} (ho : ∀ o ∈ ops, V s.nodes o) {a : Acc}
    (e : condenseAnd s ops = some a) : Distinct s.conserve a.ops := by
  obtain ⟨fs, d⟩ := exists_DenL (fun o h => Den.total i.core o (ho o h))
  have r := condenseAnd_ref i (a := ⟨[], [], true⟩) (t := []) d ⟨by simp, trivial, by simp [TDistinct]⟩
  unfold condenseAnd at e
  rw [e] at r
  generalize foldOpt (tStepAnd s.conserve) [] fs = y at r
  cases r with
  | some r => exact Distinct.of_tree i.core r.den r.dis

/-! ### Or -/

theorem Den.of_or {N : Nodes} {id : Nat} (c : Core N id) {f : Fm String} {h : H} {os : List H} (d : Den N f h)
    (e : N h = some (.or os)) : ∃ gs, f = .or gs ∧ DenL N gs os := by
  have hv : ∀ o ∈ os, ∃ g, Den N g o := fun o ho => Den.total c o (.inr (.inr ((c.ok e).2 o ho).1))
  obtain ⟨gs, hg⟩ := exists_DenL hv
  exact ⟨gs, Den.det c.ne_const f _ _ d (show Den N (.or gs) h from by simp only [Den]; exact ⟨os, e, hg⟩), hg⟩

theorem Den.sort_or {N : Nodes} {id : Nat} (c : Core N id) {f : Fm String} {h : H} (d : Den N f h) (hs : h.sort = .or) :
    ∃ os, N h = some (.or os) := by
  rcases d.valid with rfl | rfl | hv
  · exact absurd hs (by decide)
  · exact absurd hs (by decide)
  · obtain ⟨n, hn⟩ := Option.isSome_iff_exists.1 hv
    have := c.sort hn
    rw [hs] at this
    cases n <;> simp [Node.sort] at this
    exact ⟨_, hn⟩

/-- the accumulator of the handle loop and of the tree loop agree -/
structure ROr (s : Fac) (a : Acc) (t : List (Fm String)) : Prop where
  ids : ∀ i, i ∈ a.ids ↔ ∃ o ∈ a.ops, o.id = i
  den : DenL s.nodes t a.ops
  dis : TDistinct s.conserve t

/-- results of the two loops agree -/
inductive ResOr (s : Fac) : Option Acc → Option (List (Fm String)) → Prop
  | none : ResOr s none none
  | some {a t} : ROr s a t → ResOr s (some a) (some t)

theorem addFormulaOr_ref {s : Fac} (i : Inv s) {a : Acc} {t : List (Fm String)} (r : ROr s a t) {f : Fm String} {h : H}
    (d : Den s.nodes f h) : ResOr s (addFormulaOr s a h) (tAddOr s.conserve t f) := by
  have c := i.core
  unfold addFormulaOr tAddOr
  by_cases h1 : h = cFalse
  · rw [if_pos h1, if_pos ((d.eq_fls c).2 h1)]; exact .some r
  rw [if_neg h1, if_neg (fun e => h1 ((d.eq_fls c).1 e))]
  have hmem : h.id ∈ a.ids ↔ f ∈ t := by
    rw [r.ids]
    constructor
    · rintro ⟨o, ho, e⟩
      obtain ⟨g, hg, dg⟩ := r.den.mem.2 o ho
      have : o = h := V.eq_of_id c dg.valid d.valid e
      subst this
      exact Den.det c.ne_const _ _ _ dg d ▸ hg
    · intro hf
      obtain ⟨o, ho, dO⟩ := r.den.mem.1 f hf
      exact ⟨o, ho, by rw [Den.inj c _ _ _ dO d]⟩
  have hcomp : containsComplement s a.ids h = true ↔ (s.conserve = false ∧ tNot f ∈ t) := by
    unfold containsComplement
    cases hc : s.conserve with
    | true => simp
    | false =>
      simp only [Bool.false_eq_true, if_false, decide_eq_true_eq, true_and]
      rw [r.ids]
      constructor
      · rintro ⟨o, ho, e⟩
        obtain ⟨g, hg, dg⟩ := r.den.mem.2 o ho
        rw [← (Den.compl_iff c dg d).2 e]; exact hg
      · intro hf
        obtain ⟨o, ho, dO⟩ := r.den.mem.1 _ hf
        exact ⟨o, ho, (Den.compl_iff c dO d).1 rfl⟩
  by_cases h2 : h = cTrue ∨ containsComplement s a.ids h = true
  · rw [if_pos h2, if_pos (h2.imp (d.eq_tru c).2 hcomp.1)]; exact .none
  have h2' : ¬ (f = .tru ∨ (s.conserve = false ∧ tNot f ∈ t)) := fun e => h2 (e.imp (d.eq_tru c).1 hcomp.2)
  rw [if_neg h2, if_neg h2']
  by_cases h3 : h.id ∈ a.ids
  · rw [if_pos h3, if_pos (hmem.1 h3)]
    split
    · exact .some r
    · exact .some ⟨r.ids, r.den, r.dis⟩
  · rw [if_neg h3, if_neg (fun e => h3 (hmem.2 e))]
    have r' : ROr s { a with ids := h.id :: a.ids, ops := a.ops ++ [h] } (t ++ [f]) := by
      refine ⟨?_, r.den.append ⟨d, trivial⟩, ?_⟩
      · intro j
        simp only [List.mem_cons, List.mem_append, r.ids j]
        constructor
        · rintro (rfl | ⟨o, ho, rfl⟩)
          · exact ⟨h, .inr (.inl rfl), rfl⟩
          · exact ⟨o, .inl ho, rfl⟩
        · rintro ⟨o, ho | ho, rfl⟩
          · exact .inr ⟨o, ho, rfl⟩
          · rcases ho with rfl | ho
            · exact .inl rfl
            · simp at ho
      · refine r.dis.snoc (fun e => h3 (hmem.2 e)) (fun hc e => h2' (.inr ⟨hc, e⟩)) (tNot_ne_self c d) ?_
        intro g hg e
        obtain ⟨o, ho, dO⟩ := r.den.mem.1 g hg
        exact tNot_symm c d dO e
    split
    · exact .some r'
    · exact .some ⟨r'.ids, r'.den, r'.dis⟩

theorem foldAddOr_ref {s : Fac} (i : Inv s) : ∀ {fs : List (Fm String)} {hs : List H} {a : Acc} {t : List (Fm String)},
    DenL s.nodes fs hs → ROr s a t →
    ResOr s (foldOpt (addFormulaOr s) a hs) (foldOpt (tAddOr s.conserve) t fs)
  | [], hs, a, t, d, r => by rw [DenL_nil] at d; subst d; exact .some r
  | f :: fs, hs, a, t, d, r => by
    rw [DenL_cons] at d
    obtain ⟨h, hs', rfl, d1, d2⟩ := d
    have h1 := addFormulaOr_ref i r d1
    simp only [foldOpt]
    revert h1
    generalize addFormulaOr s a h = x
    generalize tAddOr s.conserve t f = y
    intro h1
    cases h1 with
    | none => exact .none
    | some r' => exact foldAddOr_ref i d2 r'

theorem stepOr_ref {s : Fac} (i : Inv s) {a : Acc} {t : List (Fm String)} (r : ROr s a t) {f : Fm String} {h : H}
    (d : Den s.nodes f h) :
    ResOr s (if h.sort = .or then foldOpt (addFormulaOr s) a (orOps s h) else addFormulaOr s a h)
      (tStepOr s.conserve t f) := by
  by_cases hs : h.sort = .or
  · rw [if_pos hs]
    obtain ⟨os, hos⟩ := d.sort_or i.core hs
    obtain ⟨gs, rfl, hg⟩ := d.of_or i.core hos
    have : orOps s h = os := by simp [orOps, hos]
    rw [this]
    exact foldAddOr_ref i hg r
  · rw [if_neg hs]
    have key : tStepOr s.conserve t f = tAddOr s.conserve t f := by
      cases f with
      | or gs =>
        simp only [Den] at d
        obtain ⟨os, h1, _⟩ := d
        exact absurd (i.core.sort h1).symm hs
      | _ => rfl
    rw [key]
    exact addFormulaOr_ref i r d

theorem condenseOr_ref {s : Fac} (i : Inv s) : ∀ {fs : List (Fm String)} {hs : List H} {a : Acc} {t : List (Fm String)},
    DenL s.nodes fs hs → ROr s a t →
    ResOr s (foldOpt (fun a f => if f.sort = .or then foldOpt (addFormulaOr s) a (orOps s f) else addFormulaOr s a f) a hs)
      (foldOpt (tStepOr s.conserve) t fs)
  | [], hs, a, t, d, r => by rw [DenL_nil] at d; subst d; exact .some r
  | f :: fs, hs, a, t, d, r => by
    rw [DenL_cons] at d
    obtain ⟨h, hs', rfl, d1, d2⟩ := d
    have h1 := stepOr_ref i r d1
    simp only [foldOpt]
    revert h1
    generalize (if h.sort = .or then foldOpt (addFormulaOr s) a (orOps s h) else addFormulaOr s a h) = x
    generalize tStepOr s.conserve t f = y
    intro h1
    cases h1 with
    | none => exact .none
    | some r' => exact condenseOr_ref i d2 r'

/-- a list of distinct operands without constants and conjunctions is left alone by `Or` -/
theorem tOr_fix_aux {cons : Bool} : ∀ (fs acc : List (Fm String)), TDistinct cons (acc ++ fs) →
    (∀ f ∈ fs, f ≠ .fls ∧ f ≠ .tru ∧ ∀ gs, f ≠ .or gs) → foldOpt (tStepOr cons) acc fs = some (acc ++ fs)
  | [], acc, _, _ => by simp [foldOpt]
  | f :: fs, acc, hd, hf => by
    have hff := hf f (by simp)
    have h1 : f ∉ acc := by
      have := (List.nodup_append.1 hd.1).2.2
      intro h; exact this f h f (by simp) rfl
    have key : tStepOr cons acc f = some (acc ++ [f]) := by
      have : tStepOr cons acc f = tAddOr cons acc f := by
        cases f with
        | or gs => exact absurd rfl (hff.2.2 gs)
        | _ => rfl
      rw [this]
      unfold tAddOr
      rw [if_neg hff.1, if_neg, if_neg h1]
      rintro (e | ⟨e1, e2⟩)
      · exact hff.2.1 e
      · exact hd.2 e1 f (by simp) (by simp [e2])
    simp only [foldOpt, key]
    have := tOr_fix_aux fs (acc ++ [f]) (by simpa using hd) (fun g hg => hf g (by simp [hg]))
    rw [this]; simp

theorem tOr_fix {cons : Bool} {fs : List (Fm String)} (hd : TDistinct cons fs) (hl : 2 ≤ fs.length)
    (hf : ∀ f ∈ fs, f ≠ .fls ∧ f ≠ .tru ∧ ∀ gs, f ≠ .or gs) : tOr cons fs = .or fs := by
  unfold tOr
  rw [tOr_fix_aux fs [] (by simpa using hd) hf]
  match fs, hl with
  | _ :: _ :: _, _ => rfl

theorem OrPost.tree {s s' : Fac} (i : Inv s) (g : Good s s') {fs : List (Fm String)} {ops : List H} {h : H}
    (hsh : ∀ h ops, s.nodes h = some (.or ops) → Distinct s.conserve ops)
    (d : DenL s.nodes fs ops) (p : OrPost s s'.nodes ops h) : Den s'.nodes (tOr s.conserve fs) h := by
  rcases p with p | p
  · have hok := i.core.ok p
    have : tOr s.conserve fs = .or fs := by
      refine tOr_fix ((hsh _ _ p).tree i.core d) (by rw [d.length]; exact hok.1) ?_
      intro f hf
      obtain ⟨o, ho, dO⟩ := d.mem.1 f hf
      have hk := hok.2 o ho
      obtain ⟨n, hn⟩ := Option.isSome_iff_exists.1 hk.1
      have hc := i.core.ne_const o n hn
      refine ⟨fun e => hc.1 ((dO.eq_fls i.core).1 e), fun e => hc.2 ((dO.eq_tru i.core).1 e), ?_⟩
      rintro gs rfl
      simp only [Den] at dO
      obtain ⟨os, h1, _⟩ := dO
      exact hk.2.2 (i.core.sort h1).symm
    rw [this]
    simp only [Den]
    exact ⟨ops, g.ext _ _ p, d.ext g.ext⟩
  · have r := condenseOr_ref i (a := ⟨[], [], true⟩) (t := []) d ⟨by simp, trivial, by simp [TDistinct]⟩
    unfold condenseOr at p
    unfold tOr
    revert p r
    generalize foldOpt (fun a f => if f.sort = .or then foldOpt (addFormulaOr s) a (orOps s f) else addFormulaOr s a f) _ ops = x
    generalize foldOpt (tStepOr s.conserve) [] fs = y
    intro p r
    cases r with
    | none => simpa [Den] using p
    | @some a t r =>
      have hl := r.den.length
      match t, ha : a.ops, r.den, hl with
      | [], [], _, _ => simpa [ha, Den] using p
      | [f], [o], dd, _ =>
        simp only [ha] at p
        subst p
        exact Den.ext g.ext _ _ dd.1
      | f1 :: f2 :: ft, o1 :: o2 :: ot, dd, _ =>
        simp only [ha] at p
        simp only [Den]
        exact ⟨_, p, dd.ext g.ext⟩

theorem condenseOr_distinct {s : Fac} (i : Inv s) {ops : List H} (ho : ∀ o ∈ ops, V s.nodes o) {a : Acc}
    (e : condenseOr s ops = some a) : Distinct s.conserve a.ops := by
  obtain ⟨fs, d⟩ := exists_DenL (fun o h => Den.total i.core o (ho o h))
  have r := condenseOr_ref i (a := ⟨[], [], true⟩) (t := []) d ⟨by simp, trivial, by simp [TDistinct]⟩
  unfold condenseOr at e
  rw [e] at r
  generalize foldOpt (tStepOr s.conserve) [] fs = y at r
  cases r with
  | some r => exact Distinct.of_tree i.core r.den r.dis

/-! ### The remaining constructors -/

theorem ImplPost.tree {cons : Bool} {N : Nodes} {id : Nat} (c : Core N id) {f g : Fm String} {l r h : H}
    (d1 : Den N f l) (d2 : Den N g r) (p : ImplPost cons N l r h) : Den N (tImpl cons f g) h := by
  unfold ImplPost at p
  unfold tImpl
  simp only [d1.eq_fls c, d1.eq_tru c, d2.eq_tru c, d2.eq_fls c, Den.compl_iff c d1 d2, Den.eq_iff c d1 d2]
  split at p
  · rw [if_pos ‹_›]; simpa [Den] using p
  rw [if_neg ‹_›]
  split at p
  · rw [if_pos ‹_›]; exact p ▸ d2
  rw [if_neg ‹_›]
  split at p
  · rw [if_pos ‹_›]; exact d1.tNot c p
  rw [if_neg ‹_›]
  split at p
  · rw [if_pos ‹_›]; simpa [Den] using p
  rw [if_neg ‹_›]
  simp only [Den]; exact ⟨l, r, p, d1, d2⟩

theorem EquivPost.tree {cons : Bool} {N : Nodes} {id : Nat} (c : Core N id) {f g : Fm String} {l r h : H}
    (d1 : Den N f l) (d2 : Den N g r) (p : EquivPost cons N l r h) : Den N (tEquiv cons f g) h := by
  unfold EquivPost at p
  unfold tEquiv
  simp only [d1.eq_fls c, d1.eq_tru c, d2.eq_tru c, d2.eq_fls c, Den.compl_iff c d1 d2, Den.eq_iff c d1 d2]
  split at p
  · rw [if_pos ‹_›]; exact p ▸ d2
  rw [if_neg ‹_›]
  split at p
  · rw [if_pos ‹_›]; exact p ▸ d1
  rw [if_neg ‹_›]
  split at p
  · rw [if_pos ‹_›]; exact d2.tNot c p
  rw [if_neg ‹_›]
  split at p
  · rw [if_pos ‹_›]; exact d1.tNot c p
  rw [if_neg ‹_›]
  split at p
  · rw [if_pos ‹_›]; simpa [Den] using p
  rw [if_neg ‹_›]
  split at p
  · rw [if_pos ‹_›]; simpa [Den] using p
  rw [if_neg ‹_›]
  simp only [Den]; exact ⟨l, r, p, d1, d2⟩

theorem MintermPost.tree {N : Nodes} {ls : List (Lit String)} {ops : List H} {h : H}
    (d : DenL N (ls.map .lit) ops) (p : MintermPost N ops h) : Den N (tMinterm ls) h := by
  have hl := d.length
  match ls, ops, hl with
  | [], [], _ => simpa [MintermPost, tMinterm, Den] using p
  | [l], [o], _ => simp only [MintermPost] at p; subst p; exact d.1
  | l1 :: l2 :: ls, o1 :: o2 :: os, _ => simp only [MintermPost] at p; simp only [tMinterm, Den]; exact ⟨_, p, d⟩
theorem ClausePost.tree {N : Nodes} {ls : List (Lit String)} {ops : List H} {h : H}
    (d : DenL N (ls.map .lit) ops) (p : ClausePost N ops h) : Den N (tClause ls) h := by
  have hl := d.length
  match ls, ops, hl with
  | [], [], _ => simpa [ClausePost, tClause, Den] using p
  | [l], [o], _ => simp only [ClausePost] at p; subst p; exact d.1
  | l1 :: l2 :: ls, o1 :: o2 :: os, _ => simp only [ClausePost] at p; simp only [tClause, Den]; exact ⟨_, p, d⟩

theorem Den.constant {N : Nodes} (b : Bool) : Den N (tConst b) (Verif.Factory.constant b) := by
  cases b <;> simp [tConst, Verif.Factory.constant, Den]

theorem evalTrivialPB_tree (c : Cmp) (k : Int) : evalTrivialPB c k = trivialPB c k := by
  cases c <;> rfl

theorem CCPost.tree {N : Nodes} {cm : Cmp} {k : Int} {vs : List H} {xs : List String} {h : H}
    (d : vs.map N = xs.map (fun x => some (.lit x true))) (p : CCPost N cm k vs h) : Den N (tCC cm k xs) h := by
  have hl : vs.length = xs.length := by simpa using congrArg List.length d
  unfold CCPost at p
  unfold tCC
  cases vs with
  | nil =>
    cases xs with
    | nil => simp only [if_true] at p; subst p; rw [evalTrivialPB_tree]; exact Den.constant _
    | cons x xs => simp at hl
  | cons v vs =>
    cases xs with
    | nil => simp at hl
    | cons x xs =>
      simp only [reduceCtorEq, if_false] at p
      simp only [List.isEmpty_cons, Bool.false_eq_true, if_false, Den]
      exact ⟨_, p, d⟩

theorem isCC_tree {N : Nodes} {id : Nat} (c : Core N id) (cm : Cmp) (k : Int) : ∀ {os : List (Int × H)} {ts : List (Int × Lit String)},
    os.map (fun o => (o.1, N o.2)) = ts.map (fun t => (t.1, some (.lit t.2.var t.2.pos))) →
    isCC cm k os = tIsCC cm k ts := by
  have h1 : ∀ {os : List (Int × H)} {ts : List (Int × Lit String)},
    os.map (fun o => (o.1, N o.2)) = ts.map (fun t => (t.1, some (.lit t.2.var t.2.pos))) →
      os.all (fun t => t.2.isPos) = ts.all (fun t => t.2.pos) ∧
      os.all (fun t => decide (t.1 = 1)) = ts.all (fun t => decide (t.1 = 1)) := by
    intro os
    induction os with
    | nil => intro ts h; cases ts <;> simp_all
    | cons o os ih =>
      intro ts h
      cases ts with
      | nil => simp at h
      | cons t ts =>
        simp only [List.map_cons, List.cons.injEq, Prod.mk.injEq] at h
        have := ih h.2
        rw [List.all_cons, List.all_cons, List.all_cons, List.all_cons, this.1, this.2, h.1.1]
        refine ⟨?_, rfl⟩
        congr 1
        have hp := c.par h.1.2
        cases hb : t.2.pos with
        | true => rw [hb] at hp; simp [Node.isNeg] at hp; simp [H.isPos, hp]
        | false => rw [hb] at hp; simp [Node.isNeg] at hp; simp [H.isPos, hp]
  intro os ts h
  unfold isCC tIsCC
  rw [(h1 h).1, (h1 h).2]
  cases cm <;> rfl

theorem PBCPost.tree {N : Nodes} {id : Nat} (c : Core N id) {cm : Cmp} {k : Int} {os : List (Int × H)} {ts : List (Int × Lit String)} {h : H}
    (d : os.map (fun o => (o.1, N o.2)) = ts.map (fun t => (t.1, some (.lit t.2.var t.2.pos))))
    (p : PBCPost N cm k os h) : Den N (tPBC cm k ts) h := by
  have hl : os.length = ts.length := by simpa using congrArg List.length d
  unfold PBCPost at p
  unfold tPBC
  rw [← isCC_tree c cm k d]
  by_cases h0 : os = []
  · subst h0
    have : ts = [] := by cases ts <;> simp_all
    subst this
    simp only [if_true] at p; subst p
    rw [evalTrivialPB_tree]; simp [Den.constant]
  · rw [if_neg h0] at p
    have : ts.isEmpty = false := by cases ts <;> simp_all
    rw [this]
    simp only [Bool.false_eq_true, if_false]
    split at p
    · rename_i h2
      rw [if_pos h2]
      simp only [Den]
      refine ⟨_, p, ?_⟩
      rw [isCC_tree c cm k d] at h2
      unfold tIsCC at h2
      simp only [Bool.and_eq_true, List.all_eq_true] at h2
      have h3 := h2.1.1
      clear h2 p hl this h0
      induction os generalizing ts with
      | nil => cases ts <;> simp_all
      | cons o os ih =>
        cases ts with
        | nil => simp at d
        | cons t ts =>
          simp only [List.map_cons, List.cons.injEq, Prod.mk.injEq] at d ⊢
          refine ⟨?_, ih d.2 (fun x hx => h3 x (by simp [hx]))⟩
          rw [d.1.2, h3 t (by simp)]
    · rename_i h2
      rw [if_neg h2]
      simp only [Den]
      exact ⟨_, p, d⟩

/-! ### Histories -/

/-- `Minterm`/`Clause` calls whose literals are distinct and not complementary; every other call -/
def Op.Plain (cons : Bool) : Op → Prop
  | .minterm ops | .clause ops => Distinct cons ops
  | _ => True

/-- reachable by plain calls only -/
inductive PReach (c : Bool) : Fac → Prop
  | init : PReach c (init c)
  | step {s : Fac} {op : Op} : PReach c s → op.Ok s → op.Plain c → (step s op).1.id < 2 ^ 28 → PReach c (step s op).1

theorem PReach.reach {c : Bool} {s : Fac} (r : PReach c s) : Reach c s := by
  induction r with
  | init => exact .init
  | step _ ok _ hb ih => exact .step ih ok hb

/-- every conjunction and disjunction of the table has distinct operands -/
def Shape (s : Fac) : Prop :=
  (∀ h ops, s.nodes h = some (.and ops) → Distinct s.conserve ops) ∧
  (∀ h ops, s.nodes h = some (.or ops) → Distinct s.conserve ops)

/-- the only nodes added satisfy `P` -/
def NewOnly (s s' : Fac) (P : Node → Prop) : Prop := ∀ x n, s'.nodes x = some n → s.nodes x = some n ∨ P n

def NotAO (n : Node) : Prop := (∀ ops, n ≠ .and ops) ∧ (∀ ops, n ≠ .or ops)

theorem NewOnly.refl (s : Fac) (P : Node → Prop) : NewOnly s s P := fun _ _ h => .inl h
theorem NewOnly.upd {s s' : Fac} {P : Node → Prop} {x : H} {n : Node} (e : s'.nodes = upd s.nodes x (some n)) (h : P n) :
    NewOnly s s' P := by
  intro y m hm
  rw [e] at hm
  by_cases hy : y = x
  · subst hy; simp [Verif.Factory.upd] at hm; exact .inr (hm ▸ h)
  · rw [upd_ne _ _ hy] at hm; exact .inl hm
theorem NewOnly.trans {s s' s'' : Fac} {P : Node → Prop} (h : NewOnly s s' P) (h' : NewOnly s' s'' P) : NewOnly s s'' P := by
  intro x n hn
  rcases h' x n hn with h1 | h1
  · exact h x n h1
  · exact .inr h1
theorem NewOnly.imp {s s' : Fac} {P Q : Node → Prop} (h : NewOnly s s' P) (hq : ∀ n, P n → Q n) : NewOnly s s' Q :=
  fun x n hn => (h x n hn).imp_right (hq n)

theorem mkVar_new (s : Fac) (nm : String) : NewOnly s (mkVar s nm).1 NotAO := by
  unfold mkVar
  split
  · exact .refl _ _
  · exact .upd rfl (by simp [NotAO])
theorem mkLit_new (s : Fac) (nm : String) (p : Bool) : NewOnly s (mkLit s nm p).1 NotAO := by
  have h := mkVar_new s nm
  unfold mkLit
  generalize mkVar s nm = x at h
  obtain ⟨s1, v⟩ := x
  simp only at h ⊢
  split
  · exact h
  split
  · exact h
  · refine h.trans ?_
    split <;> exact .upd rfl (by simp [NotAO])
theorem mkNot_new (s : Fac) (o : H) : NewOnly s (mkNot s o).1 NotAO := by
  unfold mkNot
  split
  · exact .refl _ _
  split
  · exact .refl _ _
  split
  · split <;> exact mkLit_new _ _ _
  split
  · split <;> exact .refl _ _
  split
  · exact .refl _ _
  · simp only
    split <;> exact .upd rfl (by simp [NotAO])
theorem mkImpl_new (s : Fac) (l r : H) : NewOnly s (mkImpl s l r).1 NotAO := by
  unfold mkImpl
  split
  · exact .refl _ _
  split
  · exact .refl _ _
  split
  · exact mkNot_new _ _
  split
  · exact .refl _ _
  split
  · exact .refl _ _
  · exact .upd rfl (by simp [NotAO])
theorem mkEquiv_new (s : Fac) (l r : H) : NewOnly s (mkEquiv s l r).1 NotAO := by
  unfold mkEquiv
  split
  · exact .refl _ _
  split
  · exact .refl _ _
  split
  · exact mkNot_new _ _
  split
  · exact mkNot_new _ _
  split
  · exact .refl _ _
  split
  · exact .refl _ _
  split
  · exact .refl _ _
  · exact .upd rfl (by simp [NotAO])
theorem constructCC_new (s : Fac) (c : Cmp) (k : Int) (vs : List H) : NewOnly s (constructCC s c k vs).1 NotAO := by
  unfold constructCC
  split
  · exact .refl _ _
  simp only
  split
  · exact .refl _ _
  · exact .upd rfl (by simp [NotAO])
theorem mkPBC_new (s : Fac) (c : Cmp) (k : Int) (vs : List (Int × H)) : NewOnly s (mkPBC s c k vs).1 NotAO := by
  unfold mkPBC
  split
  · exact .refl _ _
  split
  · exact constructCC_new _ _ _ _
  unfold constructPBC
  split
  · exact .refl _ _
  simp only
  split
  · exact .refl _ _
  · exact .upd rfl (by simp [NotAO])

theorem newAnd_nodes (s : Fac) (ops : List H) (b : Bool) :
    ∃ h, (newAnd s ops b).1.nodes = upd s.nodes h (some (.and ops)) := by
  unfold newAnd setCNFCaches
  cases b <;> exact ⟨_, rfl⟩
theorem newOr_nodes (s : Fac) (ops : List H) (b : Bool) :
    ∃ h, (newOr s ops b).1.nodes = upd s.nodes h (some (.or ops)) := by
  unfold newOr setCNFCaches
  cases b <;> exact ⟨_, rfl⟩

/-- the nodes a step may add -/
def Fresh (cons : Bool) (n : Node) : Prop :=
  (∀ ops, n = .and ops → Distinct cons ops) ∧ (∀ ops, n = .or ops → Distinct cons ops)

theorem NotAO.fresh {cons : Bool} {n : Node} (h : NotAO n) : Fresh cons n :=
  ⟨fun ops e => absurd e (h.1 ops), fun ops e => absurd e (h.2 ops)⟩

theorem mkAnd_new {s : Fac} (i : Inv s) {ops : List H} (ho : ∀ o ∈ ops, V s.nodes o) :
    NewOnly s (mkAnd s ops).1 (Fresh s.conserve) := by
  unfold mkAnd
  split
  · exact .refl _ _
  split
  · exact .refl _ _
  rename_i a ha
  split
  · exact .refl _ _
  · exact .refl _ _
  split
  · exact .refl _ _
  · obtain ⟨h, hn⟩ := newAnd_nodes s a.ops a.cnf
    refine .upd hn ⟨?_, by simp⟩
    intro ops e; cases e; exact condenseAnd_distinct i ho ha
theorem mkOr_new {s : Fac} (i : Inv s) {ops : List H} (ho : ∀ o ∈ ops, V s.nodes o) :
    NewOnly s (mkOr s ops).1 (Fresh s.conserve) := by
  unfold mkOr
  split
  · exact .refl _ _
  split
  · exact .refl _ _
  rename_i a ha
  split
  · exact .refl _ _
  · exact .refl _ _
  split
  · exact .refl _ _
  · obtain ⟨h, hn⟩ := newOr_nodes s a.ops a.cnf
    refine .upd hn ⟨by simp, ?_⟩
    intro ops e; cases e; exact condenseOr_distinct i ho ha
theorem mkMinterm_new {s : Fac} {ops : List H} (hd : Distinct s.conserve ops) :
    NewOnly s (mkMinterm s ops).1 (Fresh s.conserve) := by
  unfold mkMinterm
  split
  · exact .refl _ _
  split
  · exact .refl _ _
  · exact .refl _ _
  · obtain ⟨h, hn⟩ := newAnd_nodes s ops true
    refine .upd hn ⟨?_, by simp⟩
    intro ops e; cases e; exact hd
theorem mkClause_new {s : Fac} {ops : List H} (hd : Distinct s.conserve ops) :
    NewOnly s (mkClause s ops).1 (Fresh s.conserve) := by
  unfold mkClause
  split
  · exact .refl _ _
  split
  · exact .refl _ _
  · exact .refl _ _
  · obtain ⟨h, hn⟩ := newOr_nodes s ops true
    refine .upd hn ⟨by simp, ?_⟩
    intro ops e; cases e; exact hd

theorem step_new {s : Fac} (i : Inv s) {op : Op} (ok : op.Ok s) (pl : op.Plain s.conserve) :
    NewOnly s (step s op).1 (Fresh s.conserve) := by
  cases op with
  | var n => exact (mkVar_new s n).imp fun _ h => h.fresh
  | lit n p => exact (mkLit_new s n p).imp fun _ h => h.fresh
  | not o => exact (mkNot_new s o).imp fun _ h => h.fresh
  | impl l r => exact (mkImpl_new s l r).imp fun _ h => h.fresh
  | equiv l r => exact (mkEquiv_new s l r).imp fun _ h => h.fresh
  | and ops => exact mkAnd_new i ok
  | or ops => exact mkOr_new i ok
  | minterm ops => exact mkMinterm_new pl
  | clause ops => exact mkClause_new pl
  | cc c k vs => exact (constructCC_new s c k vs).imp fun _ h => h.fresh
  | pbc c k ts => exact (mkPBC_new s c k ts).imp fun _ h => h.fresh
  | auxVar n =>
    have := (mkVar_new s (n ++ toString (s.aux n))).imp (Q := Fresh s.conserve) fun _ h => h.fresh
    exact this

theorem step_shape {s : Fac} (i : Inv s) {op : Op} (ok : op.Ok s) (pl : op.Plain s.conserve)
    (hb : (step s op).1.id < 2 ^ 28) (sh : Shape s) : Shape (step s op).1 := by
  have hn := step_new i ok pl
  have hc := (step_good i ok hb).cons
  constructor
  · intro h ops e
    rw [hc]
    rcases hn h _ e with h1 | h1
    · exact sh.1 h ops h1
    · exact h1.1 ops rfl
  · intro h ops e
    rw [hc]
    rcases hn h _ e with h1 | h1
    · exact sh.2 h ops h1
    · exact h1.2 ops rfl

theorem PReach.shape {c : Bool} {s : Fac} (r : PReach c s) : Shape s := by
  induction r with
  | init => constructor <;> intro h ops e <;> simp [Verif.Factory.init] at e
  | step r ok pl hb ih => exact step_shape r.reach.inv ok (r.reach.cons ▸ pl) hb ih

/-- the tree a call must return, given the trees of its arguments -/
def OpTree (N : Nodes) (c : Bool) : Op → Fm String → Prop
  | .var n, f => f = .lit ⟨n, true⟩
  | .lit n p, f => f = .lit ⟨n, p⟩
  | .not o, f => ∃ g, Den N g o ∧ f = tNot g
  | .impl l r, f => ∃ g1 g2, Den N g1 l ∧ Den N g2 r ∧ f = tImpl c g1 g2
  | .equiv l r, f => ∃ g1 g2, Den N g1 l ∧ Den N g2 r ∧ f = tEquiv c g1 g2
  | .and ops, f => ∃ gs, DenL N gs ops ∧ f = tAnd c gs
  | .or ops, f => ∃ gs, DenL N gs ops ∧ f = tOr c gs
  | .minterm ops, f => ∃ ls, DenL N (ls.map .lit) ops ∧ f = tMinterm ls
  | .clause ops, f => ∃ ls, DenL N (ls.map .lit) ops ∧ f = tClause ls
  | .cc cm k vs, f => ∃ xs : List String, vs.map N = xs.map (fun x => some (.lit x true)) ∧ f = tCC cm k xs
  | .pbc cm k os, f => ∃ ts : List (Int × Lit String),
      os.map (fun o => (o.1, N o.2)) = ts.map (fun t => (t.1, some (.lit t.2.var t.2.pos))) ∧ f = tPBC cm k ts
  | .auxVar _, f => ∃ n, f = .lit ⟨n, true⟩

theorem DenL.det {N : Nodes} {id : Nat} (c : Core N id) : ∀ {fs gs : List (Fm String)} {hs : List H}, DenL N fs hs → DenL N gs hs → fs = gs
  | [], gs, hs, d, d' => by
    rw [DenL_nil] at d; subst d
    cases gs with
    | nil => rfl
    | cons g gs => simp [DenL] at d'
  | f :: fs, gs, hs, d, d' => by
    rw [DenL_cons] at d
    obtain ⟨h, hs', rfl, d1, d2⟩ := d
    cases gs with
    | nil => simp [DenL] at d'
    | cons g gs => rw [Den.det c.ne_const _ _ _ d1 d'.1, DenL.det c d2 d'.2]

theorem exists_lits {N : Nodes} : ∀ {os : List H}, (∀ o ∈ os, ∃ n p, N o = some (.lit n p)) →
    ∃ ls : List (Lit String), DenL N (ls.map .lit) os
  | [], _ => ⟨[], trivial⟩
  | o :: os, h => by
    obtain ⟨n, p, hn⟩ := h o (by simp)
    obtain ⟨ls, hl⟩ := exists_lits (os := os) (fun q hq => h q (by simp [hq]))
    exact ⟨⟨n, p⟩ :: ls, by simpa [Den] using hn, hl⟩
theorem exists_vars {N : Nodes} : ∀ {os : List H}, (∀ o ∈ os, ∃ n, N o = some (.lit n true)) →
    ∃ xs : List String, os.map N = xs.map (fun x => some (.lit x true))
  | [], _ => ⟨[], rfl⟩
  | o :: os, h => by
    obtain ⟨n, hn⟩ := h o (by simp)
    obtain ⟨ls, hl⟩ := exists_vars (os := os) (fun q hq => h q (by simp [hq]))
    exact ⟨n :: ls, by simp [hn, hl]⟩
theorem exists_terms {N : Nodes} : ∀ {os : List (Int × H)}, (∀ o ∈ os, ∃ n p, N o.2 = some (.lit n p)) →
    ∃ ts : List (Int × Lit String),
      os.map (fun o => (o.1, N o.2)) = ts.map (fun t => (t.1, some (.lit t.2.var t.2.pos)))
  | [], _ => ⟨[], rfl⟩
  | o :: os, h => by
    obtain ⟨n, p, hn⟩ := h o (by simp)
    obtain ⟨ls, hl⟩ := exists_terms (os := os) (fun q hq => h q (by simp [hq]))
    exact ⟨(o.1, ⟨n, p⟩) :: ls, by simp [hn, hl]⟩

/-- arguments of an admissible call have trees -/
theorem OpTree.exists {s : Fac} (i : Inv s) {op : Op} (ok : op.Ok s) (c : Bool) : ∃ f, OpTree s.nodes c op f := by
  have tot : ∀ o, Valid s o → ∃ f, Den s.nodes f o := fun o h => Den.total i.core o h
  cases op with
  | var n => exact ⟨_, rfl⟩
  | lit n p => exact ⟨_, rfl⟩
  | not o => obtain ⟨f, hf⟩ := tot o ok; exact ⟨_, f, hf, rfl⟩
  | impl l r =>
    obtain ⟨f, hf⟩ := tot l ok.1
    obtain ⟨g, hg⟩ := tot r ok.2
    exact ⟨_, f, g, hf, hg, rfl⟩
  | equiv l r =>
    obtain ⟨f, hf⟩ := tot l ok.1
    obtain ⟨g, hg⟩ := tot r ok.2
    exact ⟨_, f, g, hf, hg, rfl⟩
  | and ops => obtain ⟨fs, d⟩ := exists_DenL (fun o ho => tot o (ok o ho)); exact ⟨_, fs, d, rfl⟩
  | or ops => obtain ⟨fs, d⟩ := exists_DenL (fun o ho => tot o (ok o ho)); exact ⟨_, fs, d, rfl⟩
  | minterm ops => obtain ⟨fs, d⟩ := exists_lits ok; exact ⟨_, fs, d, rfl⟩
  | clause ops => obtain ⟨fs, d⟩ := exists_lits ok; exact ⟨_, fs, d, rfl⟩
  | cc c k vs => obtain ⟨fs, d⟩ := exists_vars ok; exact ⟨_, fs, d, rfl⟩
  | pbc c k ts => obtain ⟨fs, d⟩ := exists_terms ok; exact ⟨_, fs, d, rfl⟩
  | auxVar n => exact ⟨_, n, rfl⟩

theorem OpTree.ext {N N' : Nodes} (e : Ext N N') {c : Bool} {op : Op} {f : Fm String} (h : OpTree N c op f) : OpTree N' c op f := by
  cases op with
  | var n => exact h
  | lit n p => exact h
  | not o => obtain ⟨g, h1, h2⟩ := h; exact ⟨g, Den.ext e _ _ h1, h2⟩
  | impl l r => obtain ⟨g, g', h1, h2, h3⟩ := h; exact ⟨g, g', Den.ext e _ _ h1, Den.ext e _ _ h2, h3⟩
  | equiv l r => obtain ⟨g, g', h1, h2, h3⟩ := h; exact ⟨g, g', Den.ext e _ _ h1, Den.ext e _ _ h2, h3⟩
  | and ops => obtain ⟨g, h1, h2⟩ := h; exact ⟨g, h1.ext e, h2⟩
  | or ops => obtain ⟨g, h1, h2⟩ := h; exact ⟨g, h1.ext e, h2⟩
  | minterm ops => obtain ⟨g, h1, h2⟩ := h; exact ⟨g, h1.ext e, h2⟩
  | clause ops => obtain ⟨g, h1, h2⟩ := h; exact ⟨g, h1.ext e, h2⟩
  | cc c k vs =>
    obtain ⟨g, h1, h2⟩ := h
    refine ⟨g, ?_, h2⟩
    have := map_some_ext e (os := vs) (ms := g.map (fun x => .lit x true)) (by rw [List.map_map]; exact h1)
    rwa [List.map_map] at this
  | pbc c k ts => obtain ⟨g, h1, h2⟩ := h; exact ⟨g, map_pair_ext e h1, h2⟩
  | auxVar n => exact h

/-- **Refinement**: in plain histories every call returns the handle of the tree computed by the tree constructor. -/
theorem step_tree {s : Fac} (i : Inv s) (sh : Shape s) {op : Op} (ok : op.Ok s) (hb : (step s op).1.id < 2 ^ 28)
    {f : Fm String} (ht : OpTree s.nodes s.conserve op f) (hx : ∀ n, op ≠ .auxVar n) : Den (step s op).1.nodes f (step s op).2 := by
  cases op with
  | var n => subst ht; simp only [Den]; exact (mkVar_good i n hb).2
  | lit n p => subst ht; simp only [Den]; exact (mkLit_good i n p hb).2
  | not o =>
    obtain ⟨g, h1, rfl⟩ := ht
    have := mkNot_good i ok hb
    exact (Den.ext this.1.ext _ _ h1).tNot this.1.inv.core this.2
  | impl l r =>
    obtain ⟨g, g', h1, h2, rfl⟩ := ht
    have := mkImpl_good i ok.1 ok.2 hb
    exact this.2.tree this.1.inv.core (Den.ext this.1.ext _ _ h1) (Den.ext this.1.ext _ _ h2)
  | equiv l r =>
    obtain ⟨g, g', h1, h2, rfl⟩ := ht
    have := mkEquiv_good i ok.1 ok.2 hb
    exact this.2.tree this.1.inv.core (Den.ext this.1.ext _ _ h1) (Den.ext this.1.ext _ _ h2)
  | and ops =>
    obtain ⟨g, h1, rfl⟩ := ht
    have := mkAnd_good i ok hb
    exact this.2.tree i this.1 sh.1 h1
  | or ops =>
    obtain ⟨g, h1, rfl⟩ := ht
    have := mkOr_good i ok hb
    exact this.2.tree i this.1 sh.2 h1
  | minterm ops =>
    obtain ⟨g, h1, rfl⟩ := ht
    have := mkMinterm_good i ok hb
    exact this.2.tree (h1.ext this.1.ext)
  | clause ops =>
    obtain ⟨g, h1, rfl⟩ := ht
    have := mkClause_good i ok hb
    exact this.2.tree (h1.ext this.1.ext)
  | cc c k vs =>
    obtain ⟨g, h1, rfl⟩ := ht
    have := constructCC_good i (by omega) ok hb
    refine this.2.tree ?_
    have := map_some_ext this.1.ext (os := vs) (ms := g.map (fun x => .lit x true)) (by rw [List.map_map]; exact h1)
    rwa [List.map_map] at this
  | pbc c k ts =>
    obtain ⟨g, h1, rfl⟩ := ht
    have := mkPBC_good i ok hb
    exact this.2.tree this.1.inv.core (map_pair_ext this.1.ext h1)
  | auxVar n => exact absurd rfl (hx n)

/-- later states along plain histories -/
inductive PLater : Fac → Fac → Prop
  | refl (s : Fac) : PLater s s
  | step {s s' : Fac} {op : Op} : PLater s s' → op.Ok s' → op.Plain s'.conserve → (step s' op).1.id < 2 ^ 28 → PLater s (step s' op).1

theorem PLater.later {s s' : Fac} (l : PLater s s') : Later s s' := by
  induction l with
  | refl => exact .refl _
  | step _ ok _ hb ih => exact .step ih ok hb

theorem PLater.shape {s s' : Fac} (i : Inv s) (sh : Shape s) (l : PLater s s') : Shape s' := by
  induction l with
  | refl => exact sh
  | step l ok pl hb ih => exact step_shape (l.later.good i).inv ok pl hb ih

end Verif.Factory
