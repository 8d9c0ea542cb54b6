import Verif.Dnnf.Compile
import Verif.Factory.TreeShape
import Mathlib.Data.List.Nodup
/-!
# Properties of the DNNF compiler
-/
namespace Verif.Dnnf
open Verif Verif.Sat Verif.Tree Verif.Func
set_option linter.unusedSectionVars false

/-! ## specification -/

/-- the two formulas do not hold at the same time -/
def Contra {α : Type} (f g : Fm α) : Prop := ∀ v, f.eval v = true → g.eval v = false

/-- deterministic formulas: made of literals, conjunctions, and disjunctions whose operands exclude each other -/
inductive Det {α : Type} : Fm α → Prop
  | fls : Det .fls
  | tru : Det .tru
  | lit (l : Lit α) : Det (.lit l)
  | and {fs : List (Fm α)} : (∀ f ∈ fs, Det f) → Det (.and fs)
  | or {fs : List (Fm α)} : (∀ f ∈ fs, Det f) → fs.Pairwise Contra → Det (.or fs)

/-- decomposable formulas: the operands of a conjunction have no common variables -/
inductive Decomposable {α : Type} : Fm α → Prop
  | fls : Decomposable .fls
  | tru : Decomposable .tru
  | lit (l : Lit α) : Decomposable (.lit l)
  | and {fs : List (Fm α)} : (∀ f ∈ fs, Decomposable f) → fs.Pairwise (fun f g => ∀ x ∈ f.vars, x ∉ g.vars) → Decomposable (.and fs)
  | or {fs : List (Fm α)} : (∀ f ∈ fs, Decomposable f) → Decomposable (.or fs)

theorem ddnnf_of {α : Type} {f : Fm α} (h : Det f) : Decomposable f → DDnnf f := by
  induction h with
  | fls => exact fun _ => .fls
  | tru => exact fun _ => .tru
  | lit l => exact fun _ => .lit l
  | and _ ih => intro h; cases h with | and h1 h2 => exact .and (fun f hf => ih f hf (h1 f hf)) h2
  | or _ hc ih => intro h; cases h with | or h1 => exact .or (fun f hf => ih f hf (h1 f hf)) hc

/-! ## constructors -/

variable {α : Type} [DecidableEq α]

theorem det_andOp {fs : List (Fm α)} (h : ∀ f ∈ fs, Det f) {g : Fm α} (hg : AndOp fs g) : Det g := by
  obtain ⟨_, _, h1 | ⟨gs, h1, h2⟩⟩ := hg
  · exact h g h1.1
  · cases h _ h1 with | and h3 => exact h3 g h2

theorem det_tAnd (c : Bool) {fs : List (Fm α)} (h : ∀ f ∈ fs, Det f) : Det (tAnd c fs) :=
  tAnd_elim .tru .fls (fun _ hg => det_andOp h hg) fun _ _ _ ha => .and fun g hg => det_andOp h (ha g hg)

theorem orOp_flat {fs : List (Fm α)} (hn : ∀ f ∈ fs, ∀ gs, f ≠ .or gs) {g : Fm α} (hg : OrOp fs g) : g ∈ fs := by
  obtain ⟨_, _, h1 | ⟨gs, h1, _⟩⟩ := hg
  · exact h1.1
  · exact absurd rfl (hn _ h1 gs)

theorem det_tOr (c : Bool) {fs : List (Fm α)} (h : ∀ f ∈ fs, Det f) (hn : ∀ f ∈ fs, ∀ gs, f ≠ .or gs) (hd : ∀ f ∈ fs, ∀ g ∈ fs, f ≠ g → Contra f g) : Det (tOr c fs) :=
  tOr_elim .tru .fls (fun g hg => h g (orOp_flat hn hg)) fun a _ hnd ha => .or (fun g hg => h g (orOp_flat hn (ha g hg)))
    (List.Pairwise.imp_of_mem (fun {x y} hx hy hxy => hd x (orOp_flat hn (ha x hx)) y (orOp_flat hn (ha y hy)) hxy) hnd)

/-- a conjunction is no disjunction if no operand is one -/
theorem tAnd_ne_or (c : Bool) {fs : List (Fm α)} (h : ∀ f ∈ fs, (∀ gs, f ≠ .or gs) ∧ ∀ gs, f = .and gs → ∀ g ∈ gs, ∀ hs, g ≠ .or hs) : ∀ gs, tAnd c fs ≠ .or gs := by
  refine tAnd_elim (P := fun f => ∀ gs, f ≠ .or gs) (by simp) (by simp) (fun g hg => ?_) (by simp)
  obtain ⟨_, _, h1 | ⟨gs, h1, h2⟩⟩ := hg
  · exact (h g h1.1).1
  · exact (h _ h1).2 gs rfl g h2

/-- a conjunction with a literal is no disjunction -/
theorem tAnd_lit_ne_or (c : Bool) (l : Lit α) (f : Fm α) : ∀ gs, tAnd c [.lit l, f] ≠ .or gs := by
  intro gs
  unfold tAnd
  rw [foldOpt]
  have h1 : tStepAnd c [] (.lit l) = some [.lit l] := by simp [tStepAnd, tAddAnd]
  rw [h1]
  have keep : ∀ {acc a : List (Fm α)} {g : Fm α}, acc.head? = some (.lit l) → tAddAnd c acc g = some a → a.head? = some (.lit l) := by
    intro acc a g hh e
    unfold tAddAnd at e
    split at e
    · injection e with e; rw [← e]; exact hh
    split at e
    · cases e
    split at e
    · injection e with e; rw [← e]; exact hh
    · injection e with e
      rw [← e]
      cases acc with
      | nil => simp at hh
      | cons x xs => simpa using hh
  have key : ∀ a, foldOpt (tStepAnd c) [Fm.lit l] [f] = some a → a.head? = some (.lit l) := by
    intro a e
    refine foldOpt_inv (P := fun a : List (Fm α) => a.head? = some (.lit l)) ?_ rfl e
    intro acc g a' _ hh e
    unfold tStepAnd at e
    split at e
    · exact foldOpt_inv (P := fun a : List (Fm α) => a.head? = some (.lit l)) (fun _ _ _ _ hh e => keep hh e) hh e
    · exact keep hh e
  show (match foldOpt (tStepAnd c) [Fm.lit l] [f] with | none => Fm.fls | some [] => .tru | some [f] => f | some fs => .and fs) ≠ _
  split
  · simp
  · simp
  · rename_i g e
    have := key _ e
    simp only [List.head?_cons, Option.some.injEq] at this
    rw [this]; simp
  · simp

/-- the two branches of a Shannon expansion -/
theorem det_shannon (c : Bool) (x : α) {p n : Fm α} (hp : Det p) (hn : Det n) : Det (tOr c [tAnd c [.lit ⟨x, true⟩, p], tAnd c [.lit ⟨x, false⟩, n]]) := by
  refine det_tOr c ?_ ?_ ?_
  · intro f hf
    simp only [List.mem_cons, List.not_mem_nil, or_false] at hf
    rcases hf with rfl | rfl
    · exact det_tAnd c (by simp [hp, Det.lit])
    · exact det_tAnd c (by simp [hn, Det.lit])
  · intro f hf
    simp only [List.mem_cons, List.not_mem_nil, or_false] at hf
    rcases hf with rfl | rfl <;> exact tAnd_lit_ne_or c _ _
  · intro f hf g hg hne
    simp only [List.mem_cons, List.not_mem_nil, or_false] at hf hg
    rcases hf with rfl | rfl <;> rcases hg with rfl | rfl
    · exact absurd rfl hne
    · intro v h
      simp [Lit.eval] at h ⊢
      intro h2; rw [h.1] at h2; cases h2
    · intro v h
      simp [Lit.eval] at h ⊢
      intro h2; rw [h.1] at h2; cases h2
    · exact absurd rfl hne

/-! ## leaves -/

/-- the operands built so far: each excludes the others and what is to come, whose operands start with the negations collected in `cur` -/
structure LeafInv (ops : List (Fm Nat)) (cur : List (Lit Nat)) : Prop where
  det : ∀ f ∈ ops, Det f
  flat : ∀ f ∈ ops, ∀ gs, f ≠ .or gs
  contra : ∀ f ∈ ops, ∀ g ∈ ops, f ≠ g → Contra f g
  next : ∀ f ∈ ops, ∀ v, (∀ l ∈ cur, l.eval v = true) → f.eval v = false

theorem contra_symm {f g : Fm α} (h : Contra f g) : Contra g f := by
  intro v hg
  cases hf : f.eval v with
  | false => rfl
  | true => rw [h v hf] at hg; cases hg

theorem leafInv_step (c : Bool) {ops : List (Fm Nat)} {cur : List (Lit Nat)} (h : LeafInv ops cur) (l : Lit Nat) :
    LeafInv (ops ++ [tAnd c ((cur ++ [l]).map .lit)]) (cur ++ [l.neg]) := by
  have hnew : ∀ f ∈ ops, Contra f (tAnd c ((cur ++ [l]).map .lit)) := by
    intro f hf
    refine contra_symm fun v hv => h.next f hf v fun m hm => ?_
    rw [eval_tAnd, List.all_eq_true] at hv
    have := hv (.lit m) (List.mem_map.2 ⟨m, List.mem_append_left _ hm, rfl⟩)
    simpa using this
  refine ⟨?_, ?_, ?_, ?_⟩
  · intro f hf
    rw [List.mem_append, List.mem_singleton] at hf
    rcases hf with hf | rfl
    · exact h.det f hf
    · refine det_tAnd c fun g hg => ?_
      obtain ⟨m, _, rfl⟩ := List.mem_map.1 hg
      exact .lit m
  · intro f hf
    rw [List.mem_append, List.mem_singleton] at hf
    rcases hf with hf | rfl
    · exact h.flat f hf
    · refine tAnd_ne_or c fun g hg => ?_
      obtain ⟨m, _, rfl⟩ := List.mem_map.1 hg
      simp
  · intro f hf g hg hne
    rw [List.mem_append, List.mem_singleton] at hf hg
    rcases hf with hf | rfl <;> rcases hg with hg | rfl
    · exact h.contra f hf g hg hne
    · exact hnew f hf
    · exact contra_symm (hnew g hg)
    · exact absurd rfl hne
  · intro f hf v hv
    rw [List.mem_append, List.mem_singleton] at hf
    rcases hf with hf | rfl
    · exact h.next f hf v fun m hm => hv m (List.mem_append_left _ hm)
    · have h1 := hv l.neg (by simp)
      cases he : (tAnd c ((cur ++ [l]).map Fm.lit)).eval v with
      | false => rfl
      | true =>
        rw [eval_tAnd, List.all_eq_true] at he
        have h2 := he (.lit l) (by simp)
        rw [Fm.eval_lit] at h2
        cases l with | mk x p => cases p <;> simp [Lit.eval, Lit.neg] at h1 h2 <;> rw [h1] at h2 <;> cases h2

theorem leafLoop_det (cons : Bool) (s : S) (names : List Nat) : ∀ (c : List (Lit Nat)) (ops : List (Fm Nat)) (cur : List (Lit Nat)), LeafInv ops cur →
    Det (leafLoop cons s names c ops cur)
  | [], ops, cur, h => det_tOr cons h.det h.flat h.contra
  | l :: ls, ops, cur, h => by
    rw [leafLoop]
    split
    · exact .tru
    · exact leafLoop_det cons s names ls ops cur h
    · exact leafLoop_det cons s names ls _ _ (leafInv_step cons h l)

theorem leaf_det (cons : Bool) (s : S) (names : List Nat) (c : List (Lit Nat)) : Det (leafLoop cons s names c [] []) :=
  leafLoop_det cons s names c [] [] ⟨by simp, by simp, by simp, by simp⟩

/-! ## the recursion -/

/-- the formulas in the cache are deterministic -/
def CacheDet (st : St) : Prop := ∀ e ∈ st.cache, Det e.2

theorem lookup_mem {κ β : Type} [BEq κ] [LawfulBEq κ] {k : κ} {b : β} : ∀ {l : List (κ × β)}, l.lookup k = some b → (k, b) ∈ l
  | [], h => by simp at h
  | (k', b') :: l, h => by
    rw [List.lookup_cons] at h
    split at h
    · rename_i e
      have := eq_of_beq e
      injection h with h
      subst this h
      exact List.mem_cons_self
    · exact List.mem_cons_of_mem _ (lookup_mem h)

theorem newly_det (cons : Bool) (d : DS) (known : List Nat) : Det (d.newly cons known).1 := by
  refine det_tAnd cons fun f hf => ?_
  split at hf
  · obtain ⟨l, _, rfl⟩ := List.mem_map.1 hf
    exact .lit _
  · simp at hf

theorem run_det (cons : Bool) (O : Nat → Choice) (fuel : Nat) : ∀ (k : Nat) (j : Job) (st : St) {f : Fm Nat} {st' : St}, CacheDet st → run cons O fuel k j st = some (f, st') →
    Det f ∧ CacheDet st'
  | 0, _, _, _, _, _, h => by simp [run] at h
  | k + 1, .aux t, st, f, st', hc, h => by
    cases t with
    | leaf kn id c lits =>
      simp only [run, Option.some.injEq, Prod.mk.injEq] at h
      exact ⟨h.1 ▸ leaf_det .., h.2 ▸ hc⟩
    | node kn l r =>
      simp only [run] at h
      split at h
      · rename_i g e
        injection h with h
        injection h with h1 h2
        subst h1 h2
        exact ⟨hc _ (lookup_mem e), hc⟩
      · split at h
        · cases h
        · rename_i g st1 e
          obtain ⟨h1, h2⟩ := run_det cons O fuel k _ st hc e
          injection h with h
          injection h with h3 h4
          subst h3 h4
          refine ⟨h1, ?_⟩
          split
          · exact h2
          · intro e he
            rcases List.mem_cons.1 he with rfl | he
            · exact h1
            · exact h2 e he
  | k + 1, .inner t, st, f, st', hc, h => by
    have hi := newly_det cons st.d t.known
    have hc1 : CacheDet { st with d := (st.d.newly cons t.known).2 } := hc
    unfold run at h
    dsimp only at h
    generalize (st.d.newly cons t.known).1 = implied at h hi
    generalize (st.d.newly cons t.known).2 = d1 at h hc1
    have branch : ∀ (st2 : St) (v : Nat) (phase : Bool) {g : Fm Nat} {st3 : St}, CacheDet st2 →
        (match st2.d.decide O fuel v phase with
        | none => none
        | some (d, ok) =>
          match if ok then run cons O fuel k (.inner t) { st2 with d := d } else some (Fm.fls, { st2 with d := d }) with
          | none => none
          | some (f, st) => some (f, { st with d := st.d.undo v })) = some (g, st3) → Det g ∧ CacheDet st3 := by
      intro st2 v phase g st3 h2 e
      split at e
      · cases e
      · rename_i d ok _
        cases ok with
        | false =>
          simp only [Bool.false_eq_true, if_false, Option.some.injEq, Prod.mk.injEq] at e
          exact ⟨e.1 ▸ .fls, e.2 ▸ h2⟩
        | true =>
          simp only [if_true] at e
          split at e
          · cases e
          · rename_i g1 st4 e1
            obtain ⟨h3, h4⟩ := run_det cons O fuel k _ { st2 with d := d } h2 e1
            simp only [Option.some.injEq, Prod.mk.injEq] at e
            exact ⟨e.1 ▸ h3, e.2 ▸ h4⟩
    have again : ∀ (st2 : St) {g : Fm Nat} {st3 : St}, CacheDet st2 →
        (if st2.d.atLevel then
          match st2.d.assertCd O fuel with
          | none => none
          | some (d, true) => run cons O fuel k (.inner t) { st2 with d := d }
          | some (d, false) => some (Fm.fls, { st2 with d := d })
        else some (Fm.fls, st2)) = some (g, st3) → Det g ∧ CacheDet st3 := by
      intro st2 g st3 h2 e
      split at e
      · split at e
        · cases e
        · rename_i d _
          exact run_det cons O fuel k _ { st2 with d := d } h2 e
        · simp only [Option.some.injEq, Prod.mk.injEq] at e
          exact ⟨e.1 ▸ .fls, e.2 ▸ h2⟩
      · simp only [Option.some.injEq, Prod.mk.injEq] at e
        exact ⟨e.1 ▸ .fls, e.2 ▸ h2⟩
    split at h
    · cases t with
      | leaf kn id c lits =>
        simp only [Option.some.injEq, Prod.mk.injEq] at h
        refine ⟨h.1 ▸ det_tAnd cons ?_, h.2 ▸ hc1⟩
        simp [hi, leaf_det]
      | node kn l r =>
        dsimp only at h
        split at h
        · simp only [Option.some.injEq, Prod.mk.injEq] at h
          exact ⟨h.1 ▸ .fls, h.2 ▸ hc1⟩
        split at h
        · cases h
        rename_i left st2 e1
        obtain ⟨h1, h2⟩ := run_det cons O fuel k _ _ hc1 e1
        split at h
        · simp only [Option.some.injEq, Prod.mk.injEq] at h
          exact ⟨h.1 ▸ .fls, h.2 ▸ h2⟩
        split at h
        · cases h
        rename_i right st3 e2
        obtain ⟨h3, h4⟩ := run_det cons O fuel k _ _ h2 e2
        split at h
        · simp only [Option.some.injEq, Prod.mk.injEq] at h
          exact ⟨h.1 ▸ .fls, h.2 ▸ h4⟩
        · simp only [Option.some.injEq, Prod.mk.injEq] at h
          refine ⟨h.1 ▸ det_tAnd cons ?_, h.2 ▸ h4⟩
          simp [hi, h1, h3]
    · rename_i v _
      split at h
      · cases h
      rename_i pos st2 e1
      obtain ⟨h1, h2⟩ := branch ⟨d1, st.cache⟩ _ _ hc1 e1
      split at h
      · exact again _ h2 h
      split at h
      · cases h
      rename_i neg st3 e2
      obtain ⟨h3, h4⟩ := branch _ _ _ h2 e2
      split at h
      · exact again _ h4 h
      · simp only [Option.some.injEq, Prod.mk.injEq] at h
        refine ⟨h.1 ▸ det_tAnd cons ?_, h.2 ▸ h4⟩
        simp [hi, det_shannon cons _ h1 h3]

/-! ## the whole compiler -/

/-- a conjunction of disjunctions is no atom -/
theorem tAnd_ors (c : Bool) {fs : List (Fm α)} (h : ∀ f ∈ fs, ∃ gs, f = .or gs) (hne : fs ≠ []) : (∃ gs, tAnd c fs = .or gs) ∨ ∃ gs, tAnd c fs = .and gs := by
  have step : ∀ (gs : List (Fm α)) (acc : List (Fm α)), (∀ f ∈ gs, ∃ gs, f = .or gs) → (∀ f ∈ acc, ∃ gs, f = .or gs) →
      ∃ a, foldOpt (tStepAnd c) acc gs = some a ∧ (∀ f ∈ a, ∃ gs, f = .or gs) ∧ (acc ≠ [] ∨ gs ≠ [] → a ≠ []) := by
    intro gs
    induction gs with
    | nil => intro acc _ h2; exact ⟨acc, rfl, h2, by simp⟩
    | cons g gs ih =>
      intro acc h1 h2
      obtain ⟨hs, rfl⟩ := h1 _ List.mem_cons_self
      have hno : tNot (.or hs) ∉ acc := by
        intro hm
        obtain ⟨_, e⟩ := h2 _ hm
        simp [tNot] at e
      have e : tStepAnd c acc (.or hs) = some (if .or hs ∈ acc then acc else acc ++ [.or hs]) := by
        simp only [tStepAnd, tAddAnd, reduceCtorEq, hno, if_false, and_false, or_self]
        split <;> rfl
      rw [foldOpt, e]
      by_cases hm : Fm.or hs ∈ acc
      · rw [if_pos hm]
        obtain ⟨a, ha, hb, hc⟩ := ih acc (fun f hf => h1 f (List.mem_cons_of_mem _ hf)) h2
        exact ⟨a, ha, hb, fun _ => hc (.inl (List.ne_nil_of_mem hm))⟩
      · rw [if_neg hm]
        obtain ⟨a, ha, hb, hc⟩ := ih (acc ++ [.or hs]) (fun f hf => h1 f (List.mem_cons_of_mem _ hf)) (by
          intro f hf
          rw [List.mem_append, List.mem_singleton] at hf
          rcases hf with hf | rfl
          · exact h2 f hf
          · exact ⟨_, rfl⟩)
        exact ⟨a, ha, hb, fun _ => hc (.inl (by simp))⟩
  obtain ⟨a, ha, hb, hc⟩ := step fs [] h (by simp)
  have hc := hc (.inr hne)
  unfold tAnd
  rw [ha]
  match a, hb, hc with
  | [g], hb, _ => exact .inl (hb g (by simp))
  | g :: g2 :: gs, _, _ => exact .inr ⟨_, rfl⟩

/-- **Determinism.** For every formula in conjunctive normal form, every answer of the solver and every choice of the heuristics, the result of the compiler consists of literals,
conjunctions and disjunctions, and the operands of each disjunction exclude each other. -/
theorem C26_deterministic (cons : Bool) (O : Nat → Choice) (fuel : Nat) (sat : Bool) {f g : Fm Nat} (hf : Spec.isCNF f = true) (h : compile cons O fuel sat f = some g) : Det g := by
  unfold compile at h
  obtain ⟨⟨units, nonUnits⟩, hu⟩ : ∃ u, unitsOf cons f = u := ⟨_, rfl⟩
  rw [hu] at h
  dsimp only at h
  have hunits : Det units ∧ (isAtom nonUnits = true → Det f) := by
    cases f with
    | fls => simp only [unitsOf, Prod.mk.injEq] at hu; exact ⟨hu.1 ▸ det_tAnd cons (by simp [Det.fls]), fun _ => .fls⟩
    | tru => simp only [unitsOf, Prod.mk.injEq] at hu; exact ⟨hu.1 ▸ det_tAnd cons (by simp [Det.tru]), fun _ => .tru⟩
    | lit l => simp only [unitsOf, Prod.mk.injEq] at hu; exact ⟨hu.1 ▸ det_tAnd cons (by simp [Det.lit]), fun _ => .lit l⟩
    | or fs =>
      simp only [unitsOf, Prod.mk.injEq] at hu
      refine ⟨hu.1 ▸ det_tAnd cons (by simp), fun ha => ?_⟩
      rw [← hu.2] at ha
      rcases tAnd_ors cons (fs := [Fm.or fs]) (by simp) (by simp) with ⟨gs, e⟩ | ⟨gs, e⟩ <;> rw [e] at ha <;> simp [isAtom] at ha
    | and fs =>
      simp only [unitsOf, Prod.mk.injEq] at hu
      have hcl : ∀ g ∈ fs, (∃ l, g = .lit l) ∨ ∃ gs, g = .or gs := by
        intro g hg
        rw [Spec.isCNF, List.all_eq_true] at hf
        have := hf g hg
        cases g <;> simp [Spec.isClause] at this ⊢
      constructor
      · rw [← hu.1]
        refine det_tAnd cons fun g hg => ?_
        obtain ⟨hg, ha⟩ := List.mem_filter.1 hg
        rcases hcl g hg with ⟨l, rfl⟩ | ⟨gs, rfl⟩
        · exact .lit l
        · simp [isAtom] at ha
      · intro ha
        rw [← hu.2] at ha
        by_cases hne : fs.filter (fun f => !isAtom f) = []
        · rw [List.filter_eq_nil_iff] at hne
          refine .and fun g hg => ?_
          rcases hcl g hg with ⟨l, rfl⟩ | ⟨gs, rfl⟩
          · exact .lit l
          · exact absurd (hne _ hg) (by simp [isAtom])
        · rcases tAnd_ors cons (fs := fs.filter fun f => !isAtom f) (by
            intro g hg
            obtain ⟨hg, ha⟩ := List.mem_filter.1 hg
            rcases hcl g hg with ⟨l, rfl⟩ | h
            · simp [isAtom] at ha
            · exact h) hne with ⟨gs, e⟩ | ⟨gs, e⟩ <;> rw [e] at ha <;> simp [isAtom] at ha
    | _ => simp [Spec.isCNF, Spec.isClause] at hf
  split at h
  · cases h
  split at h
  · injection h with h; exact h ▸ .fls
  split at h
  · rename_i ha
    injection h with h
    exact h ▸ hunits.2 ha
  split at h
  · cases h
  split at h
  · cases h
  · injection h with h; exact h ▸ .fls
  split at h
  · cases h
  rename_i g0 st e
  injection h with h
  obtain ⟨h1, _⟩ := run_det cons O fuel fuel _ _ (by intro e he; simp at he) e
  rw [← h]
  exact det_tAnd cons (by simp [hunits.1, h1])

/-- **Unit clauses.** A model of the compiled formula satisfies the unit clauses. -/
theorem C26_units (cons : Bool) (O : Nat → Choice) (fuel : Nat) (sat : Bool) {fs : List (Fm Nat)} {g : Fm Nat} (h : compile cons O fuel sat (.and fs) = some g) {v : Nat → Bool}
    (hv : g.eval v = true) {l : Lit Nat} (hl : .lit l ∈ fs) : l.eval v = true := by
  unfold compile at h
  obtain ⟨units, hunits⟩ : ∃ u, tAnd cons (fs.filter isAtom) = u := ⟨_, rfl⟩
  obtain ⟨rest, hrest⟩ : ∃ u, tAnd cons (fs.filter fun f => !isAtom f) = u := ⟨_, rfl⟩
  simp only [unitsOf, hunits, hrest] at h
  split at h
  · cases h
  split at h
  · injection h with h; rw [← h] at hv; simp [Fm.eval] at hv
  split at h
  · injection h with h
    rw [← h, Fm.eval_and, List.all_eq_true] at hv
    simpa using hv _ hl
  split at h
  · cases h
  split at h
  · cases h
  · injection h with h; rw [← h] at hv; simp [Fm.eval] at hv
  split at h
  · cases h
  injection h with h
  rw [← h, eval_tAnd, List.all_eq_true] at hv
  have := hv _ List.mem_cons_self
  rw [← hunits, eval_tAnd, List.all_eq_true] at this
  simpa using this _ (List.mem_filter.2 ⟨hl, rfl⟩)

/-- **Counts of compiled formulas.** If the result is decomposable and has the models of the formula, then `ModelCount` gives the number of models of the formula. -/
theorem C26_compiled_partial (cons : Bool) (O : Nat → Choice) (fuel : Nat) (sat : Bool) {f g : Fm Nat} (hf : Spec.isCNF f = true) (h : compile cons O fuel sat f = some g)
    (hd : Decomposable g) (he : g.Equivalent f) {c : Cache Nat (Option Nat)} (hc : Reach (memo countNode) c) {orig : List Nat} (hn : orig.Nodup) (hv : ∀ x ∈ g.vars, x ∈ orig) :
    (modelCount c orig g).1 = some (count orig fun v => f.eval v) := by
  rw [C26_count_partial hc (ddnnf_of (C26_deterministic cons O fuel sat hf h) hd) hn hv]
  congr 2
  funext v
  exact he v

/-! ## the formulas of the leaves -/

theorem ddnnf_lits (c : Bool) {ls : List (Lit α)} (h : (ls.map (·.var)).Nodup) : DDnnf (tAnd c (ls.map Fm.lit)) := by
  have hop : ∀ g, AndOp (ls.map Fm.lit) g → ∃ m ∈ ls, g = .lit m := by
    rintro g ⟨_, _, h1 | ⟨gs, h1, _⟩⟩
    · obtain ⟨m, hm, rfl⟩ := List.mem_map.1 h1.1
      exact ⟨m, hm, rfl⟩
    · obtain ⟨m, _, e⟩ := List.mem_map.1 h1
      cases e
  refine tAnd_elim .tru .fls (fun g hg => ?_) fun a _ hnd ha => .and (fun g hg => ?_) ?_
  · obtain ⟨m, _, rfl⟩ := hop g hg
    exact .lit m
  · obtain ⟨m, _, rfl⟩ := hop g (ha g hg)
    exact .lit m
  · refine List.Pairwise.imp_of_mem ?_ hnd
    intro x y hx hy hne z hz1 hz2
    obtain ⟨m, hm, rfl⟩ := hop x (ha x hx)
    obtain ⟨n, hn, rfl⟩ := hop y (ha y hy)
    simp only [Fm.vars, List.mem_singleton] at hz1 hz2
    exact hne (congrArg Fm.lit (List.inj_on_of_nodup_map h hm hn (hz1.symm.trans hz2)))

theorem decomposable_of_ddnnf {f : Fm α} (h : DDnnf f) : Decomposable f := by
  induction h with
  | fls => exact .fls
  | tru => exact .tru
  | lit l => exact .lit l
  | and _ h2 ih => exact .and ih h2
  | or _ _ ih => exact .or ih

theorem leafLoop_dec (cons : Bool) (s : S) (names : List Nat) : ∀ (c : List (Lit Nat)) (ops : List (Fm Nat)) (cur : List (Lit Nat)), (∀ f ∈ ops, Decomposable f) → (∀ f ∈ ops, ∀ gs, f ≠ .or gs) →
    ((cur ++ c).map (·.var)).Nodup → Decomposable (leafLoop cons s names c ops cur)
  | [], ops, cur, h, hn, _ => tOr_elim .tru .fls (fun g hg => h g (orOp_flat hn hg)) fun a _ _ ha => .or fun g hg => h g (orOp_flat hn (ha g hg))
  | l :: ls, ops, cur, h, hn, hc => by
    rw [leafLoop]
    have hc0 : ((cur ++ ls).map (·.var)).Nodup := by
      refine hc.sublist ?_
      exact (List.Sublist.append_left (List.sublist_cons_self l ls) cur).map _
    split
    · exact .tru
    · exact leafLoop_dec cons s names ls ops cur h hn hc0
    · refine leafLoop_dec cons s names ls _ _ ?_ ?_ ?_
      · intro f hf
        rw [List.mem_append, List.mem_singleton] at hf
        rcases hf with hf | rfl
        · exact h f hf
        · refine decomposable_of_ddnnf (ddnnf_lits cons (hc.sublist ?_))
          refine List.Sublist.map _ (List.Sublist.append_left ?_ cur)
          simp
      · intro f hf
        rw [List.mem_append, List.mem_singleton] at hf
        rcases hf with hf | rfl
        · exact hn f hf
        · refine tAnd_ne_or cons fun g hg => ?_
          obtain ⟨m, _, rfl⟩ := List.mem_map.1 hg
          simp
      · simpa [Lit.neg] using hc

theorem leafLoop_eval (cons : Bool) (s : S) (names : List Nat) (v : Nat → Bool) : ∀ (c : List (Lit Nat)) (ops : List (Fm Nat)) (cur : List (Lit Nat)),
    ((ops.any fun f => f.eval v) = !cur.all fun l => l.eval v) →
    (leafLoop cons s names c ops cur).eval v = (subsumed s (c.map (toSolver names)) || (ops.any fun f => f.eval v) || c.any fun l => s.value (toSolver names l) == none && l.eval v)
  | [], ops, cur, _ => by simp [leafLoop, subsumed]
  | l :: ls, ops, cur, h => by
    rw [leafLoop]
    cases hv : s.value (toSolver names l) with
    | none =>
      dsimp only
      rw [leafLoop_eval cons s names v ls]
      · simp only [List.any_append, List.any_cons, List.any_nil, eval_tAnd, List.map_append, List.all_append, List.map_cons, List.map_nil, List.all_cons, List.all_nil, subsumed, hv,
          Fm.eval_lit, List.all_map, Function.comp_def]
        cases h1 : ops.any fun f => f.eval v with
        | true => simp
        | false =>
          rw [h1] at h
          have h2 : (cur.all fun l => l.eval v) = true := by simpa using h.symm
          simp [h2]
          cases l.eval v <;> simp
      · simp only [List.any_append, List.any_cons, List.any_nil, eval_tAnd, List.map_append, List.all_append, List.map_cons, List.map_nil, List.all_cons, List.all_nil,
          Fm.eval_lit, List.all_map, Function.comp_def]
        rw [h]
        have h3 : l.neg.eval v = !l.eval v := by cases l with | mk x p => cases p <;> simp [Lit.eval, Lit.neg]
        rw [h3]
        cases (cur.all fun l => l.eval v) <;> cases l.eval v <;> rfl
    | some b =>
      cases b with
      | true => simp [subsumed, hv]
      | false =>
        dsimp only
        rw [leafLoop_eval cons s names v ls ops cur h]
        simp [subsumed, hv]

/-- **Leaves.** The formula of a leaf is what the values on the solver leave of the clause; for a clause without repeated variables it is deterministic and decomposable. -/
theorem C26_leaf (cons : Bool) (s : S) (names : List Nat) (c : List (Lit Nat)) :
    (∀ v, (leafLoop cons s names c [] []).eval v =
      ((c.any fun l => s.value (toSolver names l) == some true) || c.any fun l => s.value (toSolver names l) == none && l.eval v)) ∧
    ((c.map (·.var)).Nodup → DDnnf (leafLoop cons s names c [] [])) := by
  constructor
  · intro v
    rw [leafLoop_eval cons s names v c [] [] (by simp)]
    simp [subsumed, Function.comp_def]
  · intro hc
    exact ddnnf_of (leaf_det cons s names c) (leafLoop_dec cons s names c [] [] (by simp) (by simp) (by simpa using hc))

/-! ## the tree -/

/-- the clauses at the leaves -/
def DT.clauses : DT → List (Nat × List (Lit Nat))
  | .leaf id c => [(id, c)]
  | .node l r => l.clauses ++ r.clauses

theorem compose_clauses : ∀ (k : Nat) (ts : List DT) {t : DT}, compose k ts = some t → t.clauses = ts.flatMap DT.clauses
  | 0, _, _, h => by simp [compose] at h
  | k + 1, ts, t, h => by
    rw [compose.eq_def] at h
    match ts with
    | [t1] => simp at h; simp [h]
    | [] =>
      simp only at h
      split at h
      · rename_i l r h1 h2
        injection h with h
        rw [← h, DT.clauses, compose_clauses k _ h1, compose_clauses k _ h2]
        simp
      · cases h
    | t1 :: t2 :: ts =>
      simp only at h
      split at h
      · rename_i l r h1 h2
        injection h with h
        rw [← h, DT.clauses, compose_clauses k _ h1, compose_clauses k _ h2, ← List.flatMap_append, List.take_append_drop]
      · cases h

theorem compose_some : ∀ (k : Nat) (ts : List DT), ts ≠ [] → ts.length < k → ∃ t, compose k ts = some t
  | 0, _, _, h => by omega
  | k + 1, ts, hne, h => by
    match ts, hne with
    | [t1], _ => exact ⟨t1, by simp [compose]⟩
    | t1 :: t2 :: ts, _ =>
      have hl : (t1 :: t2 :: ts).length / 2 < (t1 :: t2 :: ts).length ∧ 0 < (t1 :: t2 :: ts).length / 2 := by simp only [List.length_cons]; omega
      obtain ⟨l, h1⟩ := compose_some k ((t1 :: t2 :: ts).take ((t1 :: t2 :: ts).length / 2)) (by
        intro e; have := congrArg List.length e; rw [List.length_take] at this; simp only [List.length_nil] at this; omega) (by rw [List.length_take]; omega)
      obtain ⟨r, h2⟩ := compose_some k ((t1 :: t2 :: ts).drop ((t1 :: t2 :: ts).length / 2)) (by
        intro e; have := congrArg List.length e; rw [List.length_drop] at this; simp only [List.length_nil] at this; omega) (by rw [List.length_drop]; omega)
      refine ⟨.node l r, ?_⟩
      rw [compose.eq_def]
      simp only [h1, h2]

theorem eliminate_spec {ts : List DT} (hne : ts ≠ []) (x : Nat) : ∃ ts', eliminate (some ts) x = some ts' ∧ ts' ≠ [] ∧ (ts'.flatMap DT.clauses).Perm (ts.flatMap DT.clauses) := by
  unfold eliminate
  dsimp only
  split
  · exact ⟨ts, rfl, hne, .refl _⟩
  · rename_i g hg
    obtain ⟨t, ht⟩ := compose_some ((ts.filter fun t => t.vars.contains x).length + 1) _ hg (by omega)
    rw [ht]
    refine ⟨_, rfl, by simp, ?_⟩
    rw [List.flatMap_append, List.flatMap_singleton, compose_clauses _ _ ht, ← List.flatMap_append]
    refine List.Perm.flatMap_right _ ?_
    refine List.Perm.trans ?_ (List.filter_append_perm (fun t => t.vars.contains x) ts)
    exact List.perm_append_comm

theorem leaves0_clauses : ∀ (i : Nat) (cs : List (List (Lit Nat))), (leaves0 i cs).flatMap DT.clauses = (List.range' i cs.length).zip cs
  | _, [] => rfl
  | i, c :: cs => by simp [leaves0, DT.clauses, leaves0_clauses (i + 1) cs, List.range'_succ]

/-- **Trees.** For every elimination order of the variables the generator gives a tree, and its leaves are the clauses, each with its own number. -/
theorem C26_tree {cs : List (List (Lit Nat))} (hne : cs ≠ []) (ordering : List Nat) : ∃ t, treeOf cs ordering = some t ∧ t.clauses.Perm ((List.range cs.length).zip cs) := by
  have key : ∀ (xs : List Nat) (ts : List DT), ts ≠ [] → ∃ ts', xs.foldl eliminate (some ts) = some ts' ∧ ts' ≠ [] ∧ (ts'.flatMap DT.clauses).Perm (ts.flatMap DT.clauses) := by
    intro xs
    induction xs with
    | nil => exact fun ts h => ⟨ts, rfl, h, .refl _⟩
    | cons x xs ih =>
      intro ts h
      obtain ⟨ts1, h1, h2, h3⟩ := eliminate_spec h x
      obtain ⟨ts2, h4, h5, h6⟩ := ih ts1 h2
      exact ⟨ts2, by rw [List.foldl_cons, h1, h4], h5, h6.trans h3⟩
  obtain ⟨ts, h1, h2, h3⟩ := key ordering (leaves0 0 cs) (by cases cs <;> simp [leaves0] at hne ⊢)
  obtain ⟨t, ht⟩ := compose_some (ts.length + 1) ts h2 (by omega)
  refine ⟨t, by rw [treeOf, h1]; exact ht, ?_⟩
  rw [compose_clauses _ _ ht, List.range_eq_range', ← leaves0_clauses]
  exact h3

end Verif.Dnnf
