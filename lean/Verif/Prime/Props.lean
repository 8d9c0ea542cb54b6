import Verif.Prime.Model
import Verif.Opt.Props
import Verif.Transform.Props
import Verif.Spec.Count
import Mathlib.Data.List.Dedup
import Mathlib.Data.List.Sublists
/-
C37: the computed implicants and implicates are prime, the wanted side is complete, both sides are covers.
-/
namespace Verif.Prime
open Verif Verif.Tree Verif.Opt Verif.Transform
set_option linter.unusedSectionVars false
set_option linter.unusedSimpArgs false

/-! ## specification -/
section Spec
variable {α : Type}

/-- a term: a satisfiable conjunction of literals -/
def Consistent (P : List (Lit α)) : Prop := ∀ l ∈ P, l.neg ∉ P
/-- all literals of `P` are true -/
def TermTrue (v : α → Bool) (P : List (Lit α)) : Prop := ∀ l ∈ P, l.eval v = true
/-- some literal of `C` is true -/
def ClauseTrue (v : α → Bool) (C : List (Lit α)) : Prop := ∃ l ∈ C, l.eval v = true
structure Implicant (f : Fm α) (P : List (Lit α)) : Prop where
  cons : Consistent P
  imp : ∀ v, TermTrue v P → f.eval v = true
structure Implicate (f : Fm α) (C : List (Lit α)) : Prop where
  cons : Consistent C
  imp : ∀ v, f.eval v = true → ClauseTrue v C
/-- no implicant has fewer literals, taken from `P` -/
structure PrimeImplicant (f : Fm α) (P : List (Lit α)) : Prop where
  isImp : Implicant f P
  min : ∀ Q, Q ⊆ P → Implicant f Q → P ⊆ Q
structure PrimeImplicate (f : Fm α) (C : List (Lit α)) : Prop where
  isImp : Implicate f C
  min : ∀ D, D ⊆ C → Implicate f D → C ⊆ D

end Spec

variable {α : Type} [DecidableEq α]

/-- the solvers answer rightly, unless cancelled (C18, C48), sets are listed in any order -/
structure Orc.Ok (o : Orc α) (max : Bool) : Prop where
  opt_none : ∀ n h ls, o.opt n h ls = some none → ¬ ∃ v, Holds v h
  opt_some : ∀ n h ls v, o.opt n h ls = some (some v) → Optimal max h ls v
  sat : ∀ n f as b, o.sat n f as = some b → (b = true ↔ ∃ v, f.eval v = true ∧ TermTrue v as)
  mdl_none : ∀ n f as vs, o.mdl n f as vs = some none → ¬ ∃ v, f.eval v = true ∧ TermTrue v as
  mdl_some : ∀ n f as vs m, o.mdl n f as vs = some (some m) →
    (∃ v, TermTrue v m) ∧ (∀ l ∈ m, l.var ∈ vs) ∧ (∀ l ∈ as, l.var ∈ vs → l ∈ m) ∧
      ((∀ x ∈ f.vars, x ∈ vs) → ∀ v, TermTrue v m → f.eval v = true)
  ordV : ∀ l, (o.ordV l).Perm l
  ordL : ∀ l, (o.ordL l).Perm l

/-! ## lemmas on literals -/

theorem neg_neg (l : Lit α) : l.neg.neg = l := by cases l; simp [Lit.neg]
theorem neg_var (l : Lit α) : l.neg.var = l.var := rfl
theorem var_cases {l m : Lit α} (h : l.var = m.var) : l = m ∨ l = m.neg := by
  obtain ⟨x, p⟩ := l; obtain ⟨y, q⟩ := m
  simp only at h; subst h
  cases p <;> cases q <;> simp [Lit.neg]
theorem neg_ne (l : Lit α) : l.neg ≠ l := by cases l with | mk x p => cases p <;> simp [Lit.neg]

/-- the assignment making the literals of a term true -/
def asg (P : List (Lit α)) (x : α) : Bool := decide ((⟨x, true⟩ : Lit α) ∈ P)
theorem asg_true {P : List (Lit α)} (h : Consistent P) : TermTrue (asg P) P := by
  intro l hl
  obtain ⟨x, p⟩ := l
  cases p with
  | true => simpa [Lit.eval, asg] using hl
  | false =>
    have := h _ hl
    simpa [Lit.eval, asg, Lit.neg] using this
theorem consistent_of {P : List (Lit α)} {v : α → Bool} (h : TermTrue v P) : Consistent P := by
  intro l hl hn
  have h1 := h l hl
  have h2 := h _ hn
  rw [Lit.eval_neg, h1] at h2
  cases h2
theorem Consistent.sub {P Q : List (Lit α)} (h : Consistent P) (hs : Q ⊆ P) : Consistent Q := fun l hl hn => h l (hs hl) (hs hn)
theorem Consistent.negs {P : List (Lit α)} (h : Consistent P) : Consistent (P.map Lit.neg) := by
  intro l hl hn
  obtain ⟨a, ha, rfl⟩ := List.mem_map.1 hl
  obtain ⟨b, hb, hab⟩ := List.mem_map.1 hn
  rw [neg_neg] at hab
  subst hab
  exact h _ hb ha
theorem negs_negs (P : List (Lit α)) : (P.map Lit.neg).map Lit.neg = P := by
  rw [List.map_map]
  conv_rhs => rw [← List.map_id P]
  exact List.map_congr_left fun l _ => neg_neg l
theorem mem_negs {P : List (Lit α)} {l : Lit α} : l ∈ P.map Lit.neg ↔ l.neg ∈ P := by
  rw [List.mem_map]
  constructor
  · rintro ⟨a, ha, rfl⟩; rwa [neg_neg]
  · intro h; exact ⟨_, h, neg_neg l⟩
theorem clauseTrue_negs {v : α → Bool} {P : List (Lit α)} : ClauseTrue v (P.map Lit.neg) ↔ ¬ TermTrue v P := by
  unfold ClauseTrue TermTrue
  constructor
  · rintro ⟨l, hl, h⟩ h'
    have := h' _ (mem_negs.1 hl)
    rw [Lit.eval_neg, h] at this
    cases this
  · intro h
    by_contra hc
    refine h fun l hl => ?_
    by_contra hn
    exact hc ⟨l.neg, mem_negs.2 (by rwa [neg_neg]), by rw [Lit.eval_neg]; simpa using hn⟩
theorem termTrue_negs {v : α → Bool} {P : List (Lit α)} : TermTrue v (P.map Lit.neg) ↔ ¬ ClauseTrue v P := by
  have := clauseTrue_negs (v := v) (P := P.map Lit.neg)
  rw [negs_negs] at this
  rw [this, not_not]

/-- a term implying a clause shares a literal with it -/
theorem meet {P C : List (Lit α)} (hP : Consistent P) (hC : Consistent C) (h : ∀ v, TermTrue v P → ClauseTrue v C) : ∃ l ∈ C, l ∈ P := by
  by_contra hc
  have hcons : Consistent (P ++ C.map Lit.neg) := by
    intro l hl hn
    rcases List.mem_append.1 hl with h1 | h1 <;> rcases List.mem_append.1 hn with h2 | h2
    · exact hP l h1 h2
    · rw [mem_negs, neg_neg] at h2
      exact hc ⟨l, h2, h1⟩
    · rw [mem_negs] at h1
      exact hc ⟨_, h1, h2⟩
    · rw [mem_negs] at h1 h2
      exact hC _ h1 h2
  have ht := asg_true hcons
  have h1 := h _ fun l hl => ht l (List.mem_append.2 (.inl hl))
  exact termTrue_negs.1 (fun l hl => ht l (List.mem_append.2 (.inr hl))) h1

/-! ## reduction -/

/-- the assumptions `asm S` contradict the formula -/
def Contra (base : Fm α) (asm : Lit α → Lit α) (S : List (Lit α)) : Prop := ¬ ∃ v, base.eval v = true ∧ ∀ l ∈ S, (asm l).eval v = true

theorem Contra.mono {base : Fm α} {asm : Lit α → Lit α} {S T : List (Lit α)} (h : Contra base asm S) (hs : S ⊆ T) : Contra base asm T := by
  rintro ⟨v, h1, h2⟩
  exact h ⟨v, h1, fun l hl => h2 l (hs hl)⟩

theorem reduceLoop_spec {o : Orc α} {max : Bool} (ho : o.Ok max) (base : Fm α) (asm : Lit α → Lit α) :
    ∀ (ls cur : List (Lit α)) (n : Nat) (r : List (Lit α) × Nat), Contra base asm cur →
      (∀ l ∈ cur, l ∉ ls → ¬ Contra base asm (cur.filter (· ≠ l))) → reduceLoop o base asm ls cur n = some r →
      Contra base asm r.1 ∧ (∀ l ∈ r.1, ¬ Contra base asm (r.1.filter (· ≠ l))) ∧ r.1 ⊆ ls ++ cur
  | [], cur, n, r, h1, h2, h => by
    simp only [reduceLoop, Option.some.injEq] at h
    subst h
    exact ⟨h1, fun l hl => h2 l hl (by simp), by simp⟩
  | l :: ls, cur, n, r, h1, h2, h => by
    simp only [reduceLoop] at h
    have hsub : cur.filter (· ≠ l) ⊆ cur := List.filter_subset' _
    cases hb : o.sat n base ((o.ordL (cur.filter (· ≠ l))).map asm) with
    | none => rw [hb] at h; cases h
    | some b =>
      have hs := ho.sat _ _ _ _ hb
      have hs' : (∃ v, base.eval v = true ∧ TermTrue v ((o.ordL (cur.filter (· ≠ l))).map asm)) ↔ ¬ Contra base asm (cur.filter (· ≠ l)) := by
        unfold Contra TermTrue
        rw [not_not]
        refine exists_congr fun v => and_congr_right fun _ => ?_
        rw [List.forall_mem_map]
        exact forall_congr' fun m => by rw [(ho.ordL _).mem_iff]
      rw [hs'] at hs
      rw [hb] at h
      cases b with
      | true =>
        simp only at h
        have hn := hs.1 rfl
        have hmem : ∀ m, m ∈ cur.filter (· ≠ l) ++ [l] → m = l ∨ (m ∈ cur ∧ m ≠ l) := by
          intro m hm
          simp at hm
          tauto
        have hl : l ∈ cur := by
          by_contra hl
          apply hn
          rwa [List.filter_eq_self.2]
          intro m hm
          simp only [ne_eq, decide_eq_true_eq]
          rintro rfl
          exact hl hm
        have he : ∀ m, m ∈ cur.filter (· ≠ l) ++ [l] ↔ m ∈ cur := by
          intro m
          by_cases hm : m = l
          · subst hm; simp [hl]
          · simp [hm]
        obtain ⟨r1, r2, r3⟩ := reduceLoop_spec ho base asm ls _ _ r (h1.mono fun m hm => (he m).2 hm) (by
          intro m hm hml hc
          by_cases hml' : m = l
          · subst hml'
            apply hn
            refine hc.mono fun k hk => ?_
            simp only [List.mem_filter, he] at hk
            simp only [List.mem_filter]
            exact hk
          · refine h2 m ((he m).1 hm) (by simp [hml, hml']) (hc.mono fun k hk => ?_)
            simp only [List.mem_filter, he] at hk
            simp only [List.mem_filter]
            exact hk) h
        refine ⟨r1, r2, fun m hm => ?_⟩
        have := r3 hm
        rcases List.mem_append.1 this with h | h
        · simp [h]
        · rw [he] at h; simp [h]
      | false =>
        simp only at h
        have hc : Contra base asm (cur.filter (· ≠ l)) := by
          by_contra hc
          exact absurd (hs.2 hc) (by simp)
        obtain ⟨r1, r2, r3⟩ := reduceLoop_spec ho base asm ls _ _ r hc (by
          intro m hm hml hc'
          have hm' := hm
          simp only [List.mem_filter, decide_eq_true_eq] at hm'
          refine h2 m hm'.1 (by simp [hml, hm'.2]) (hc'.mono fun k hk => ?_)
          simp only [List.mem_filter] at hk ⊢
          exact ⟨hk.1.1, hk.2⟩) h
        refine ⟨r1, r2, fun m hm => ?_⟩
        rcases List.mem_append.1 (r3 hm) with h | h
        · simp [h]
        · simp only [List.mem_filter] at h; simp [h]

theorem reduce_spec {o : Orc α} {max : Bool} (ho : o.Ok max) {base : Fm α} {asm : Lit α → Lit α} {ls : List (Lit α)} {n : Nat} {p : List (Lit α)} {n' : Nat}
    (hc : Contra base asm ls) (h : reduce o base asm ls n = some (p, n')) :
    Contra base asm p ∧ (∀ l ∈ p, ¬ Contra base asm (p.filter (· ≠ l))) ∧ p ⊆ ls := by
  unfold reduce at h
  by_cases hg : o.go n
  · rw [if_pos hg] at h
    cases hr : reduceLoop o base asm ls ls.dedup (n + 1) with
    | none => rw [hr] at h; cases h
    | some r =>
      rw [hr] at h
      simp only [Option.map_some, Option.some.injEq, Prod.mk.injEq] at h
      obtain ⟨rfl, rfl⟩ := h
      obtain ⟨h1, h2, h3⟩ := reduceLoop_spec ho base asm ls ls.dedup (n + 1) r (hc.mono fun l hl => List.mem_dedup.2 hl)
        (fun l hl hn => absurd (List.mem_dedup.1 hl) hn) hr
      have hp := ho.ordL r.1
      refine ⟨h1.mono hp.symm.subset, fun l hl hcc => h2 l (hp.mem_iff.1 hl) (hcc.mono fun k hk => ?_), fun l hl => ?_⟩
      · simp only [List.mem_filter] at hk ⊢
        exact ⟨hp.mem_iff.1 hk.1, hk.2⟩
      · have := h3 (hp.mem_iff.1 hl)
        simpa using this
  · rw [if_neg hg] at h; cases h

theorem contra_implicant (f : Fm α) (S : List (Lit α)) : Contra (tNot f) id S ↔ ∀ v, TermTrue v S → f.eval v = true := by
  unfold Contra TermTrue
  constructor
  · intro h v hv
    by_contra hf
    exact h ⟨v, by simpa using hf, hv⟩
  · rintro h ⟨v, h1, h2⟩
    have := h v h2
    simp [this] at h1
theorem contra_implicate (f : Fm α) (S : List (Lit α)) : Contra f Lit.neg S ↔ ∀ v, f.eval v = true → ClauseTrue v S := by
  unfold Contra
  constructor
  · intro h v hv
    by_contra hf
    refine h ⟨v, hv, fun l hl => ?_⟩
    rw [Lit.eval_neg]
    by_contra hn
    exact hf ⟨l, hl, by simpa using hn⟩
  · rintro h ⟨v, h1, h2⟩
    obtain ⟨l, hl, h3⟩ := h v h1
    have := h2 l hl
    rw [Lit.eval_neg, h3] at this
    cases this

theorem primeImplicant_of {f : Fm α} {P : List (Lit α)} (h1 : Consistent P) (h2 : Contra (tNot f) id P)
    (h3 : ∀ l ∈ P, ¬ Contra (tNot f) id (P.filter (· ≠ l))) : PrimeImplicant f P := by
  refine ⟨⟨h1, (contra_implicant f P).1 h2⟩, fun Q hQ hi l hl => ?_⟩
  by_contra hn
  refine h3 l hl (((contra_implicant f Q).2 hi.imp).mono fun m hm => ?_)
  simp only [List.mem_filter, ne_eq, decide_eq_true_eq]
  exact ⟨hQ hm, by rintro rfl; exact hn hm⟩
theorem primeImplicate_of {f : Fm α} {P : List (Lit α)} (h1 : Consistent P) (h2 : Contra f Lit.neg P)
    (h3 : ∀ l ∈ P, ¬ Contra f Lit.neg (P.filter (· ≠ l))) : PrimeImplicate f P := by
  refine ⟨⟨h1, (contra_implicate f P).1 h2⟩, fun Q hQ hi l hl => ?_⟩
  by_contra hn
  refine h3 l hl (((contra_implicate f Q).2 hi.imp).mono fun m hm => ?_)
  simp only [List.mem_filter, ne_eq, decide_eq_true_eq]
  exact ⟨hQ hm, by rintro rfl; exact hn hm⟩

/-! ## the formulas on the solver with the new variables -/

/-- literal values on the tree of a non-tautological clause -/
theorem litEval_tOr (cons : Bool) (g : Lit α → Bool) {C : List (Lit α)} (hC : Consistent C) :
    litEval g (tOr cons (C.map .lit)) = true ↔ ∃ l ∈ C, g l = true := by
  have hw : ∃ w : α → Bool, ∀ l ∈ C, l.eval w = g l := by
    refine ⟨fun x => if (⟨x, true⟩ : Lit α) ∈ C then g ⟨x, true⟩ else !(g ⟨x, false⟩), ?_⟩
    rintro ⟨x, p⟩ hl
    cases p with
    | true => simp [Lit.eval, hl]
    | false =>
      have := hC _ hl
      simp only [Lit.neg, Bool.not_false] at this
      simp [Lit.eval, this]
  obtain ⟨w, hw⟩ := hw
  have hev : (tOr cons (C.map .lit)).eval w = true ↔ ∃ l ∈ C, g l = true := by
    rw [eval_tOr, List.any_eq_true]
    constructor
    · rintro ⟨f, hf, he⟩
      obtain ⟨l, hl, rfl⟩ := List.mem_map.1 hf
      exact ⟨l, hl, by rw [← hw l hl]; simpa using he⟩
    · rintro ⟨l, hl, he⟩
      exact ⟨.lit l, List.mem_map.2 ⟨l, hl, rfl⟩, by simpa [hw l hl] using he⟩
  have key : ∀ a, foldOpt (tStepOr cons) [] (C.map .lit) = some a → ∀ f ∈ a, litEval g f = f.eval w := by
    intro a ha f hf
    rcases tOr_condensed_mem ha f hf with h | ⟨gs, h, _⟩
    · obtain ⟨l, hl, rfl⟩ := List.mem_map.1 h
      simp [litEval, hw l hl]
    · obtain ⟨l, _, h⟩ := List.mem_map.1 h
      cases h
  rw [← hev]
  unfold tOr at hev ⊢
  cases ha : foldOpt (tStepOr cons) [] (C.map .lit) with
  | none => simp [litEval]
  | some a =>
    have hk := key a ha
    match a, hk with
    | [], _ => simp [litEval]
    | [f], hk => simp [hk f (by simp)]
    | f :: g' :: fs, hk =>
      simp only [litEval, litEvalAny_eq, Fm.eval_or]
      rw [List.any_eq_true, List.any_eq_true]
      exact exists_congr fun f' => and_congr_right fun hf => by rw [hk f' hf]

theorem tAnd_cc_vars (cons : Bool) (fs : List (Fm α)) (hfs : ∀ f ∈ fs, ∃ c k xs, f = .cc c k xs) : ∀ f ∈ fs, ∀ x ∈ f.vars, x ∈ (tAnd cons fs).vars := by
  have key : ∀ (fs acc : List (Fm α)), (∀ f ∈ fs, ∃ c k xs, f = .cc c k xs) → (∀ f ∈ acc, ∃ c k xs, f = .cc c k xs) →
      ∃ a, foldOpt (tStepAnd cons) acc fs = some a ∧ acc ⊆ a ∧ fs ⊆ a := by
    intro fs
    induction fs with
    | nil => intro acc _ _; exact ⟨acc, rfl, by simp, by simp⟩
    | cons f fs ih =>
      intro acc h1 h2
      obtain ⟨c, k, xs, rfl⟩ := h1 f (by simp)
      have hn : tNot (.cc c k xs : Fm α) ∉ acc := by
        intro h
        obtain ⟨c', k', xs', h⟩ := h2 _ h
        cases h
      have hs : tStepAnd cons acc (.cc c k xs) = some (if (.cc c k xs : Fm α) ∈ acc then acc else acc ++ [.cc c k xs]) := by
        simp only [tStepAnd, tAddAnd]
        rw [if_neg (by simp), if_neg (by simp [hn])]
        split <;> rfl
      simp only [foldOpt, hs]
      by_cases hm : (.cc c k xs : Fm α) ∈ acc
      · rw [if_pos hm]
        obtain ⟨a, h3, h4, h5⟩ := ih acc (fun f hf => h1 f (by simp [hf])) h2
        exact ⟨a, h3, h4, by simp only [List.cons_subset]; exact ⟨h4 hm, h5⟩⟩
      · rw [if_neg hm]
        obtain ⟨a, h3, h4, h5⟩ := ih (acc ++ [.cc c k xs]) (fun f hf => h1 f (by simp [hf])) (by
          intro f hf
          rcases List.mem_append.1 hf with h | h
          · exact h2 f h
          · exact ⟨c, k, xs, by simpa using h⟩)
        exact ⟨a, h3, fun x hx => h4 (by simp [hx]), by simp only [List.cons_subset]; exact ⟨h4 (by simp), h5⟩⟩
  intro f hf x hx
  obtain ⟨a, h1, _, h3⟩ := key fs [] hfs (by simp)
  unfold tAnd
  rw [h1]
  have hfa := h3 hf
  match a, hfa with
  | [], hfa => simp at hfa
  | [g], hfa => simp at hfa; subst hfa; exact hx
  | g :: g' :: gs, hfa =>
    simp only [Fm.vars_and, List.mem_flatMap]
    exact ⟨f, hfa, hx⟩

/-- the new variables separate positive and negative literals -/
structure Nv (nv : Lit α → α) (old : α → Lit α) : Prop where
  old_nv : ∀ l, old (nv l) = l

theorem Nv.inj {nv : Lit α → α} {old : α → Lit α} (h : Nv nv old) {l m : Lit α} (e : nv l = nv m) : l = m := by
  rw [← h.old_nv l, e, h.old_nv]

/-- meaning of the formulas on `hSolver` -/
structure HM (nv : Lit α → α) (vars : List α) (imps ics : List (List (Lit α))) (v : α → Bool) : Prop where
  amo : ∀ l : Lit α, l.var ∈ vars → v (nv l) = true → v (nv l.neg) = false
  blk : ∀ P ∈ imps, ∃ l ∈ P, v (nv l) = false
  hit : ∀ C ∈ ics, ∃ l ∈ C, v (nv l) = true

theorem constraint_eval (cons : Bool) (nv : Lit α → α) (vars : List α) (v : α → Bool) :
    (constraint cons nv vars).eval v = true ↔ ∀ l : Lit α, l.var ∈ vars → v (nv l) = true → v (nv l.neg) = false := by
  unfold constraint
  rw [eval_tAnd, List.all_eq_true]
  constructor
  · rintro h ⟨x, p⟩ hl
    have := h _ (List.mem_map.2 ⟨x, hl, rfl⟩)
    simp only [eval_tCC, cntTrue, Cmp.holds] at this
    cases h1 : v (nv ⟨x, true⟩) <;> cases h2 : v (nv ⟨x, false⟩) <;> cases p <;> simp [h1, h2, Lit.neg] at this ⊢
  · intro h f hf
    obtain ⟨x, hx, rfl⟩ := List.mem_map.1 hf
    have := h ⟨x, true⟩ hx
    rw [eval_tCC]
    simp only [Lit.neg, Bool.not_true] at this
    rcases Bool.eq_false_or_eq_true (v (nv ⟨x, true⟩)) with h1 | h1 <;> rcases Bool.eq_false_or_eq_true (v (nv ⟨x, false⟩)) with h2 | h2 <;>
      simp [h1, h2, cntTrue, Cmp.holds] at this ⊢

theorem substitution_litVal (nv : Lit α → α) {vars : List α} {l : Lit α} (hl : l.var ∈ vars) (v : α → Bool) :
    litVal (substitution nv vars) v l = v (nv l) := by
  unfold litVal
  have : substitution nv vars l = some ⟨nv l, true⟩ := if_pos hl
  rw [this]
  simp [Lit.eval]

theorem block_eval (cons : Bool) (nv : Lit α → α) {vars : List α} {P : List (Lit α)} (hP : ∀ l ∈ P, l.var ∈ vars) (v : α → Bool) :
    (tOr cons (P.map fun l => tNot (substLits cons (substitution nv vars) (.lit l)))).eval v = true ↔ ∃ l ∈ P, v (nv l) = false := by
  rw [eval_tOr, List.any_map, List.any_eq_true]
  refine exists_congr fun l => and_congr_right fun hl => ?_
  simp only [Function.comp, eval_tNot, C34_literals, litEval, substitution_litVal nv (hP l hl)]
  simp

theorem hit_eval (cons : Bool) (nv : Lit α → α) {vars : List α} {C : List (Lit α)} (hC : Consistent C) (hv : ∀ l ∈ C, l.var ∈ vars) (v : α → Bool) :
    (substLits cons (substitution nv vars) (tOr cons (C.map .lit))).eval v = true ↔ ∃ l ∈ C, v (nv l) = true := by
  rw [C34_literals, litEval_tOr cons _ hC]
  exact exists_congr fun l => and_congr_right fun hl => by rw [substitution_litVal nv (hv l hl)]

/-- what the loop keeps -/
structure LInv (nv : Lit α → α) (f : Fm α) (vars : List α) (h : List (Fm α)) (imps ics : List (List (Lit α))) : Prop where
  holds : ∀ v, Holds v h ↔ HM nv vars imps ics v
  known : ∀ l : Lit α, l.var ∈ vars → ∃ g ∈ h, nv l ∈ g.vars
  mem : ∀ x, x ∈ vars ↔ x ∈ f.vars
  prImp : ∀ P ∈ imps, PrimeImplicant f P ∧ ∀ l ∈ P, l.var ∈ vars
  prIc : ∀ C ∈ ics, PrimeImplicate f C ∧ ∀ l ∈ C, l.var ∈ vars
  /-- no implicant is found twice -/
  impsNe : imps.Pairwise fun P Q => ¬ P ⊆ Q
  icsNe : ics.Pairwise fun C D => ¬ C ⊆ D

/-- the literals of a model -/
theorem mem_model {nv : Lit α → α} {old : α → Lit α} (hn : Nv nv old) {o : Orc α} {max : Bool} (ho : o.Ok max) {vars : List α} {h : List (Fm α)}
    (hk : ∀ l : Lit α, l.var ∈ vars → ∃ g ∈ h, nv l ∈ g.vars) (v : α → Bool) (l : Lit α) :
    l ∈ transformModel old (resultModel o.ordV h (newLits nv vars) [] v) ↔ l.var ∈ vars ∧ v (nv l) = true := by
  unfold transformModel
  rw [List.mem_map]
  have hnl : ∀ x, (∃ l' ∈ newLits nv vars, l'.var = x) ↔ ∃ m : Lit α, m.var ∈ vars ∧ nv m = x := by
    intro x
    unfold newLits
    constructor
    · rintro ⟨l', hl', rfl⟩
      obtain ⟨y, hy, h⟩ := List.mem_flatMap.1 hl'
      simp only [List.mem_cons, List.not_mem_nil, or_false] at h
      rcases h with rfl | rfl
      · exact ⟨⟨y, true⟩, hy, rfl⟩
      · exact ⟨⟨y, false⟩, hy, rfl⟩
    · rintro ⟨⟨y, p⟩, hy, rfl⟩
      refine ⟨⟨nv ⟨y, p⟩, true⟩, List.mem_flatMap.2 ⟨y, hy, ?_⟩, rfl⟩
      cases p <;> simp
  constructor
  · rintro ⟨m, hm, rfl⟩
    rw [List.mem_filter, C48_result_model _ ho.ordV, hnl] at hm
    obtain ⟨⟨h1, _, h3⟩, h4⟩ := hm
    rcases h1 with h1 | ⟨k, hk', he⟩
    · simp at h1
    · rw [← he, hn.old_nv]
      refine ⟨hk', ?_⟩
      rw [Lit.eval, if_pos h4] at h3
      rwa [he]
  · rintro ⟨h1, h2⟩
    refine ⟨⟨nv l, true⟩, ?_, hn.old_nv l⟩
    rw [List.mem_filter, C48_result_model _ ho.ordV, hnl]
    exact ⟨⟨.inr ⟨l, h1, rfl⟩, hk l h1, by simpa [Lit.eval] using h2⟩, rfl⟩

/-! ## one round -/

theorem numTrue_lt {v w : α → Bool} : ∀ {ls : List (Lit α)}, (∀ l ∈ ls, l.eval v = true → l.eval w = true) →
    (∃ l ∈ ls, l.eval w = true ∧ l.eval v = false) → numTrue v ls < numTrue w ls := by
  have hle : ∀ ls : List (Lit α), (∀ l ∈ ls, l.eval v = true → l.eval w = true) → numTrue v ls ≤ numTrue w ls := by
    intro ls
    induction ls with
    | nil => intro _; exact Nat.le_refl _
    | cons a ls ih =>
      intro h
      have ih := ih fun l hl => h l (by simp [hl])
      have ha := h a (by simp)
      simp only [numTrue, List.filter_cons] at ih ⊢
      cases h1 : a.eval v <;> cases h2 : a.eval w <;> simp [h1, h2] at ha ⊢ <;> omega
  intro ls
  induction ls with
  | nil => intro _ h; simp at h
  | cons a ls ih =>
    intro h hx
    have ha := h a (by simp)
    have hl := hle ls fun l hl => h l (by simp [hl])
    simp only [numTrue, List.filter_cons] at ih hl ⊢
    obtain ⟨l, hm, h3, h4⟩ := hx
    rcases List.mem_cons.1 hm with rfl | hm
    · simp [h3, h4]; omega
    · have ih := ih (fun l hl => h l (by simp [hl])) ⟨l, hm, h3, h4⟩
      cases h1 : a.eval v <;> cases h2 : a.eval w <;> simp [h1, h2] at ha ⊢ <;> omega

theorem mem_newLits {nv : Lit α → α} {vars : List α} {m : Lit α} : m ∈ newLits nv vars ↔ ∃ l : Lit α, l.var ∈ vars ∧ m = ⟨nv l, true⟩ := by
  unfold newLits
  rw [List.mem_flatMap]
  constructor
  · rintro ⟨y, hy, h⟩
    simp only [List.mem_cons, List.not_mem_nil, or_false] at h
    rcases h with rfl | rfl
    · exact ⟨⟨y, true⟩, hy, rfl⟩
    · exact ⟨⟨y, false⟩, hy, rfl⟩
  · rintro ⟨⟨y, p⟩, hy, rfl⟩
    refine ⟨y, hy, ?_⟩
    cases p <;> simp

theorem model_consistent {nv : Lit α → α} {vars : List α} {imps ics : List (List (Lit α))} {v : α → Bool} (hm : HM nv vars imps ics v) {ls : List (Lit α)}
    (hls : ∀ l, l ∈ ls ↔ l.var ∈ vars ∧ v (nv l) = true) : Consistent ls := by
  intro l hl hn
  rw [hls] at hl hn
  have := hm.amo l hl.1 hl.2
  rw [hn.2] at this
  cases this

/-- a smallest model which is an implicant is prime -/
theorem min_prime {nv : Lit α → α} {old : α → Lit α} (hn : Nv nv old) {f : Fm α} {vars : List α} {h : List (Fm α)} {imps ics : List (List (Lit α))}
    (hi : LInv nv f vars h imps ics) {v : α → Bool} (hv : Optimal false h (newLits nv vars) v) {ls : List (Lit α)}
    (hls : ∀ l, l ∈ ls ↔ l.var ∈ vars ∧ v (nv l) = true) (hc : Contra (tNot f) id ls) : PrimeImplicant f ls := by
  have hm := (hi.holds v).1 hv.1
  have hcons := model_consistent hm hls
  refine primeImplicant_of hcons hc fun l hl hcl => ?_
  let w : α → Bool := fun y => if y = nv l then false else v y
  have hw : ∀ m, w (nv m) = true ↔ m ≠ l ∧ v (nv m) = true := by
    intro m
    by_cases hml : m = l
    · subst hml; simp [w]
    · have : nv m ≠ nv l := fun e => hml (hn.inj e)
      simp [w, this, hml]
  have hwH : HM nv vars imps ics w := by
    refine ⟨fun m hmv hmt => ?_, fun P hP => ?_, fun C hC => ?_⟩
    · have h1 := hm.amo m hmv ((hw m).1 hmt).2
      by_contra hc
      have := ((hw m.neg).1 (by simpa using hc)).2
      rw [h1] at this; cases this
    · obtain ⟨k, hk, hf⟩ := hm.blk P hP
      refine ⟨k, hk, ?_⟩
      by_contra hc
      have := ((hw k).1 (by simpa using hc)).2
      rw [hf] at this; cases this
    · have hC' := (hi.prIc C hC).1.isImp
      obtain ⟨k, hk1, hk2⟩ := meet (P := ls.filter (· ≠ l)) (hcons.sub (List.filter_subset' _)) hC'.cons
        fun u hu => hC'.imp u ((contra_implicant f _).1 hcl u hu)
      simp only [List.mem_filter, ne_eq, decide_eq_true_eq] at hk2
      exact ⟨k, hk1, (hw k).2 ⟨hk2.2, ((hls k).1 hk2.1).2⟩⟩
  have h1 := hv.2 w ((hi.holds w).2 hwH)
  simp only [Bool.false_eq_true, if_false] at h1
  have hl' := (hls l).1 hl
  have h2 : numTrue w (newLits nv vars) < numTrue v (newLits nv vars) := by
    refine numTrue_lt (fun m hm he => ?_) ⟨⟨nv l, true⟩, mem_newLits.2 ⟨l, hl'.1, rfl⟩, by simpa [Lit.eval] using hl'.2, by simp [Lit.eval, w]⟩
    obtain ⟨k, _, rfl⟩ := mem_newLits.1 hm
    simp only [Lit.eval, if_true] at he ⊢
    exact ((hw k).1 he).2
  omega

/-- a largest model contradicting no falsifying assignment is a falsifying assignment -/
theorem max_total {nv : Lit α → α} {old : α → Lit α} (hn : Nv nv old) {f : Fm α} {vars : List α} {h : List (Fm α)} {imps ics : List (List (Lit α))}
    (hi : LInv nv f vars h imps ics) {v : α → Bool} (hv : Optimal true h (newLits nv vars) v) {ls : List (Lit α)}
    (hls : ∀ l, l ∈ ls ↔ l.var ∈ vars ∧ v (nv l) = true) {w : α → Bool} (hw1 : (tNot f).eval w = true) (hw2 : TermTrue w ls) :
    ∀ u, TermTrue u ls → (tNot f).eval u = true := by
  have hm := (hi.holds v).1 hv.1
  let w' : α → Bool := fun y => (old y).eval w
  have hw' : ∀ l, w' (nv l) = l.eval w := fun l => by simp [w', hn.old_nv]
  have hwf : f.eval w = false := by simpa using hw1
  have hH : HM nv vars imps ics w' := by
    refine ⟨fun l _ hl => ?_, fun P hP => ?_, fun C hC => ?_⟩
    · rw [hw'] at hl ⊢
      rw [Lit.eval_neg, hl]; rfl
    · have hP' := (hi.prImp P hP).1.isImp
      by_contra hc
      have := hP'.imp w fun l hl => by
        by_contra hl'
        exact hc ⟨l, hl, by rw [hw']; simpa using hl'⟩
      rw [hwf] at this; cases this
    · obtain ⟨l, hl, ht⟩ := hm.hit C hC
      refine ⟨l, hl, ?_⟩
      rw [hw']
      exact hw2 l ((hls l).2 ⟨(hi.prIc C hC).2 l hl, ht⟩)
  have h1 := hv.2 w' ((hi.holds w').2 hH)
  simp only [if_true] at h1
  have htot : ∀ l : Lit α, l.var ∈ vars → l.eval w = true → l ∈ ls := by
    intro l hl he
    by_contra hnl
    have hvl : v (nv l) = false := by
      by_contra hc
      exact hnl ((hls l).2 ⟨hl, by simpa using hc⟩)
    have h2 : numTrue v (newLits nv vars) < numTrue w' (newLits nv vars) := by
      refine numTrue_lt (fun m hm' he' => ?_) ⟨⟨nv l, true⟩, mem_newLits.2 ⟨l, hl, rfl⟩, by simpa [Lit.eval, hw'] using he, by simpa [Lit.eval] using hvl⟩
      obtain ⟨k, hk, rfl⟩ := mem_newLits.1 hm'
      simp only [Lit.eval, if_true] at he' ⊢
      rw [hw']
      exact hw2 k ((hls k).2 ⟨hk, he'⟩)
    omega
  intro u hu
  rw [eval_tNot, ← Fm.eval_congr f (v := w) (w := u), hwf]; rfl
  intro x hx
  have hxv := (hi.mem x).2 hx
  cases hwx : w x with
  | true =>
    have := hu _ (htot ⟨x, true⟩ hxv (by simp [Lit.eval, hwx]))
    simp only [Lit.eval, if_true] at this
    rw [this]
  | false =>
    have := hu _ (htot ⟨x, false⟩ hxv (by simp [Lit.eval, hwx]))
    simpa [Lit.eval] using this.symm

theorem holds_snoc (v : α → Bool) (h : List (Fm α)) (g : Fm α) : Holds v (h ++ [g]) ↔ Holds v h ∧ g.eval v = true := by
  simp [Holds, or_imp, forall_and]

/-- adding an implicant -/
theorem LInv.addImp {cons : Bool} {nv : Lit α → α} {f : Fm α} {vars : List α} {h : List (Fm α)} {imps ics : List (List (Lit α))}
    (hi : LInv nv f vars h imps ics) {v : α → Bool} (hv : HM nv vars imps ics v) {P : List (Lit α)} (hP : PrimeImplicant f P)
    (hs : ∀ l ∈ P, l.var ∈ vars ∧ v (nv l) = true) :
    LInv nv f vars (h ++ [tOr cons (P.map fun l => tNot (substLits cons (substitution nv vars) (.lit l)))]) (imps ++ [P]) ics := by
  refine ⟨fun u => ?_, fun l hl => ?_, hi.mem, fun Q hQ => ?_, hi.prIc, ?_, hi.icsNe⟩
  · rw [holds_snoc, hi.holds, block_eval cons nv fun l hl => (hs l hl).1]
    constructor
    · rintro ⟨h1, h2⟩
      refine ⟨h1.amo, fun Q hQ => ?_, h1.hit⟩
      rcases List.mem_append.1 hQ with h | h
      · exact h1.blk Q h
      · rw [List.mem_singleton] at h; subst h; exact h2
    · intro h1
      exact ⟨⟨h1.amo, fun Q hQ => h1.blk Q (by simp [hQ]), h1.hit⟩, h1.blk P (by simp)⟩
  · obtain ⟨g, hg, hx⟩ := hi.known l hl
    exact ⟨g, by simp [hg], hx⟩
  · rcases List.mem_append.1 hQ with h | h
    · exact hi.prImp Q h
    · rw [List.mem_singleton] at h; subst h
      exact ⟨hP, fun l hl => (hs l hl).1⟩
  · rw [List.pairwise_append]
    refine ⟨hi.impsNe, by simp, fun Q hQ P' hP' hsub => ?_⟩
    rw [List.mem_singleton] at hP'; subst hP'
    obtain ⟨l, hl, hf⟩ := hv.blk Q hQ
    have := (hs l (hsub hl)).2
    rw [hf] at this; cases this

/-- adding an implicate -/
theorem LInv.addIc {cons : Bool} {nv : Lit α → α} {f : Fm α} {vars : List α} {h : List (Fm α)} {imps ics : List (List (Lit α))}
    (hi : LInv nv f vars h imps ics) {v : α → Bool} (hv : HM nv vars imps ics v) {C : List (Lit α)} (hC : PrimeImplicate f C)
    (hs : ∀ l ∈ C, l.var ∈ vars ∧ v (nv l) = false) :
    LInv nv f vars (h ++ [substLits cons (substitution nv vars) (tOr cons (C.map .lit))]) imps (ics ++ [C]) := by
  refine ⟨fun u => ?_, fun l hl => ?_, hi.mem, hi.prImp, fun Q hQ => ?_, hi.impsNe, ?_⟩
  · rw [holds_snoc, hi.holds, hit_eval cons nv hC.isImp.cons fun l hl => (hs l hl).1]
    constructor
    · rintro ⟨h1, h2⟩
      refine ⟨h1.amo, h1.blk, fun Q hQ => ?_⟩
      rcases List.mem_append.1 hQ with h | h
      · exact h1.hit Q h
      · rw [List.mem_singleton] at h; subst h; exact h2
    · intro h1
      exact ⟨⟨h1.amo, h1.blk, fun Q hQ => h1.hit Q (by simp [hQ])⟩, h1.hit C (by simp)⟩
  · obtain ⟨g, hg, hx⟩ := hi.known l hl
    exact ⟨g, by simp [hg], hx⟩
  · rcases List.mem_append.1 hQ with h | h
    · exact hi.prIc Q h
    · rw [List.mem_singleton] at h; subst h
      exact ⟨hC, fun l hl => (hs l hl).1⟩
  · rw [List.pairwise_append]
    refine ⟨hi.icsNe, by simp, fun D hD C' hC' hsub => ?_⟩
    rw [List.mem_singleton] at hC'; subst hC'
    obtain ⟨l, hl, hf⟩ := hv.hit D hD
    have := (hs l (hsub hl)).2
    rw [hf] at this; cases this

/-! ## the measure -/

open Classical in
/-- number of models of the formulas on `hSolver` -/
noncomputable def mu (nv : Lit α → α) (vars : List α) (imps ics : List (List (Lit α))) : Nat :=
  count ((newLits nv vars).map (·.var)) fun v => decide (HM nv vars imps ics v)

theorem countP_lt {A : Type} {p q : A → Bool} : ∀ {l : List A}, (∀ a ∈ l, q a = true → p a = true) → (∃ a ∈ l, p a = true ∧ q a = false) →
    l.countP q < l.countP p
  | [], _, h => by simp at h
  | a :: l, h1, h2 => by
    have hle : l.countP q ≤ l.countP p := List.countP_mono_left fun b hb => h1 b (by simp [hb])
    obtain ⟨b, hb, hp, hq⟩ := h2
    rcases List.mem_cons.1 hb with rfl | hb
    · simp [hp, hq]; omega
    · have := countP_lt (fun b hb => h1 b (by simp [hb])) ⟨b, hb, hp, hq⟩
      have ha := h1 a (by simp)
      simp only [List.countP_cons]
      cases h3 : q a <;> cases h4 : p a <;> simp [h3, h4] at ha ⊢ <;> omega

theorem mu_lt {nv : Lit α → α} {vars : List α} {imps ics imps' ics' : List (List (Lit α))}
    (h1 : ∀ P ∈ imps ++ ics, ∀ l ∈ P, l.var ∈ vars) (h2 : ∀ P ∈ imps' ++ ics', ∀ l ∈ P, l.var ∈ vars)
    (h3 : ∀ v, HM nv vars imps' ics' v → HM nv vars imps ics v) {v : α → Bool} (hv : HM nv vars imps ics v) (hv' : ¬ HM nv vars imps' ics' v) :
    mu nv vars imps' ics' < mu nv vars imps ics := by
  classical
  have hcong : ∀ {A B : List (List (Lit α))}, (∀ P ∈ A ++ B, ∀ l ∈ P, l.var ∈ vars) → ∀ {u w : α → Bool},
      (∀ l : Lit α, l.var ∈ vars → u (nv l) = w (nv l)) → HM nv vars A B u → HM nv vars A B w := by
    intro A B hAB u w he h
    refine ⟨fun l hl ht => ?_, fun P hP => ?_, fun C hC => ?_⟩
    · rw [← he l hl] at ht
      rw [← he l.neg hl]
      exact h.amo l hl ht
    · obtain ⟨l, hl, hf⟩ := h.blk P hP
      exact ⟨l, hl, by rw [← he l (hAB P (by simp [hP]) l hl)]; exact hf⟩
    · obtain ⟨l, hl, hf⟩ := h.hit C hC
      exact ⟨l, hl, by rw [← he l (hAB C (by simp [hC]) l hl)]; exact hf⟩
  have hag : ∀ l : Lit α, l.var ∈ vars → v (nv l) = asgOf (((newLits nv vars).map (·.var)).filter v) (nv l) := by
    intro l hl
    have : nv l ∈ (newLits nv vars).map (·.var) := List.mem_map.2 ⟨⟨nv l, true⟩, mem_newLits.2 ⟨l, hl, rfl⟩, rfl⟩
    unfold asgOf
    rw [Bool.eq_iff_iff, decide_eq_true_iff, List.mem_filter]
    exact ⟨fun h => ⟨this, h⟩, fun h => h.2⟩
  unfold mu count
  refine countP_lt (fun S _ h => ?_) ⟨((newLits nv vars).map (·.var)).filter v, ?_, ?_, ?_⟩
  · rw [decide_eq_true_iff] at h ⊢
    exact h3 _ h
  · exact List.mem_sublists'.2 List.filter_sublist
  · rw [decide_eq_true_iff]
    exact hcong h1 hag hv
  · rw [decide_eq_false_iff_not]
    exact fun h => hv' (hcong h2 (fun l hl => (hag l hl).symm) h)

theorem mu_le (nv : Lit α → α) (vars : List α) (imps ics : List (List (Lit α))) : mu nv vars imps ics ≤ 4 ^ vars.length := by
  unfold mu count
  refine Nat.le_trans List.countP_le_length ?_
  rw [List.length_sublists', List.length_map]
  have : (newLits nv vars).length = 2 * vars.length := by
    unfold newLits
    induction vars with
    | nil => rfl
    | cons x xs ih => simp only [List.flatMap_cons, List.length_append, ih, List.length_cons, List.length_nil]; omega
  rw [this, Nat.pow_mul]

/-! ## the loop -/

theorem LInv.vars' {nv : Lit α → α} {f : Fm α} {vars : List α} {h : List (Fm α)} {imps ics : List (List (Lit α))}
    (hi : LInv nv f vars h imps ics) : ∀ P ∈ imps ++ ics, ∀ l ∈ P, l.var ∈ vars := by
  intro P hP l hl
  rcases List.mem_append.1 hP with h | h
  · exact (hi.prImp P h).2 l hl
  · exact (hi.prIc P h).2 l hl

theorem loop_spec {o : Orc α} {max : Bool} (ho : o.Ok max) (cons : Bool) {nv : Lit α → α} {old : α → Lit α} (hn : Nv nv old) {f : Fm α} {vars : List α} :
    ∀ (k n : Nat) (h : List (Fm α)) (imps ics : List (List (Lit α))), LInv nv f vars h imps ics →
      (∀ A B, loop o cons max nv old f vars k n h imps ics = .ok A B → ∃ h', LInv nv f vars h' A B ∧ ¬ ∃ v, Holds v h') ∧
      (mu nv vars imps ics < k → loop o cons max nv old f vars k n h imps ics ≠ .fuel)
  | 0, n, h, imps, ics, hi => ⟨fun A B e => (by cases e), fun h => absurd h (Nat.not_lt_zero _)⟩
  | k + 1, n, h, imps, ics, hi => by
    have hl : loop o cons max nv old f vars (k + 1) n h imps ics =
      match o.opt n h (newLits nv vars) with
      | none => .canceled
      | some none => .ok imps ics
      | some (some v) =>
        let ls := transformModel old (resultModel o.ordV h (newLits nv vars) [] v)
        match o.mdl (n + 1) (tNot f) ls vars with
        | none => .canceled
        | some none =>
          match (if max then reduce o (tNot f) id ls (n + 2) else some (ls, n + 2) : Option (List (Lit α) × Nat)) with
          | none => .canceled
          | some (p, n') =>
            loop o cons max nv old f vars k n' (h ++ [tOr cons (p.map fun l => tNot (substLits cons (substitution nv vars) (.lit l)))])
              (imps ++ [p]) ics
        | some (some m) =>
          match reduce o f Lit.neg ((if max then ls else m).map Lit.neg) (n + 2) with
          | none => .canceled
          | some (c, n') =>
            loop o cons max nv old f vars k n' (h ++ [substLits cons (substitution nv vars) (tOr cons (c.map .lit))])
              imps (ics ++ [c]) := rfl
    rw [hl]
    cases ho1 : o.opt n h (newLits nv vars) with
    | none => exact ⟨fun A B e => (by cases e), fun _ e => (by cases e)⟩
    | some r =>
    cases r with
    | none =>
      refine ⟨fun A B e => ?_, fun _ e => (by cases e)⟩
      simp only [Out.ok.injEq] at e
      obtain ⟨rfl, rfl⟩ := e
      exact ⟨h, hi, ho.opt_none _ _ _ ho1⟩
    | some v =>
    dsimp only
    have hv := ho.opt_some _ _ _ _ ho1
    have hm := (hi.holds v).1 hv.1
    obtain ⟨ls, hls'⟩ : ∃ ls, transformModel old (resultModel o.ordV h (newLits nv vars) [] v) = ls := ⟨_, rfl⟩
    have hls := mem_model hn ho hi.known v
    rw [hls'] at hls ⊢
    have hcons := model_consistent hm hls
    cases ho2 : o.mdl (n + 1) (tNot f) ls vars with
    | none => exact ⟨fun A B e => (by cases e), fun _ e => (by cases e)⟩
    | some r =>
    cases r with
    | none =>
      dsimp only
      have hcon : Contra (tNot f) id ls := ho.mdl_none _ _ _ _ ho2
      obtain ⟨r, hr⟩ : ∃ r, (if max then reduce o (tNot f) id ls (n + 2) else some (ls, n + 2) : Option (List (Lit α) × Nat)) = r := ⟨_, rfl⟩
      rw [hr]
      cases r with
      | none => exact ⟨fun A B e => (by cases e), fun _ e => (by cases e)⟩
      | some r =>
      obtain ⟨p, n'⟩ := r
      have hp : PrimeImplicant f p ∧ p ⊆ ls := by
        cases max with
        | true =>
          rw [if_pos rfl] at hr
          obtain ⟨h1, h2, h3⟩ := reduce_spec ho hcon hr
          exact ⟨primeImplicant_of (hcons.sub h3) h1 h2, h3⟩
        | false =>
          rw [if_neg (by simp)] at hr
          simp only [Option.some.injEq, Prod.mk.injEq] at hr
          obtain ⟨rfl, rfl⟩ := hr
          exact ⟨min_prime hn hi hv hls hcon, fun _ h => h⟩
      have hs : ∀ l ∈ p, l.var ∈ vars ∧ v (nv l) = true := fun l hl => (hls l).1 (hp.2 hl)
      have hi' := hi.addImp (cons := cons) hm hp.1 hs
      have hlt : mu nv vars (imps ++ [p]) ics < mu nv vars imps ics :=
        mu_lt hi.vars' hi'.vars' (fun u hu => ⟨hu.amo, fun Q hQ => hu.blk Q (by simp [hQ]), hu.hit⟩) hm (fun hc => by
          obtain ⟨l, hl, hf⟩ := hc.blk p (by simp)
          have := (hs l hl).2
          rw [hf] at this; cases this)
      obtain ⟨h1, h2⟩ := loop_spec ho cons hn k n' _ _ _ hi'
      exact ⟨h1, fun hk => h2 (by omega)⟩
    | some m =>
      dsimp only
      obtain ⟨⟨w, hw⟩, hm1, hm2, hm3⟩ := ho.mdl_some _ _ _ _ _ ho2
      replace hm3 := hm3 fun x hx => (hi.mem x).2 (by simpa using hx)
      have hmc := consistent_of hw
      have hsub : ls ⊆ m := fun l hl => hm2 l hl ((hls l).1 hl).1
      -- the literals the implicate is made of
      obtain ⟨t, ht⟩ : ∃ t, (if max then ls else m) = t := ⟨_, rfl⟩
      rw [ht]
      have htt : Consistent t ∧ (∀ l ∈ t, l.var ∈ vars) ∧ ls ⊆ t ∧ ∀ u, TermTrue u t → (tNot f).eval u = true := by
        cases max with
        | true =>
          rw [if_pos rfl] at ht; subst ht
          exact ⟨hcons, fun l hl => ((hls l).1 hl).1, fun _ h => h, max_total hn hi hv hls (hm3 w hw) fun l hl => hw l (hsub hl)⟩
        | false =>
          rw [if_neg (by simp)] at ht; subst ht
          exact ⟨hmc, hm1, hsub, hm3⟩
      obtain ⟨ht1, ht2, ht3, ht4⟩ := htt
      have hcon : Contra f Lit.neg (t.map Lit.neg) := by
        rw [contra_implicate]
        intro u hu
        rw [clauseTrue_negs]
        intro h
        have := ht4 u h
        simp [hu] at this
      cases hr : reduce o f Lit.neg (t.map Lit.neg) (n + 2) with
      | none => exact ⟨fun A B e => (by cases e), fun _ e => (by cases e)⟩
      | some r =>
      obtain ⟨c, n'⟩ := r
      dsimp only
      obtain ⟨h1, h2, h3⟩ := reduce_spec ho hcon hr
      have hp : PrimeImplicate f c := primeImplicate_of (ht1.negs.sub h3) h1 h2
      have hs : ∀ l ∈ c, l.var ∈ vars ∧ v (nv l) = false := by
        intro l hl
        have hlt := mem_negs.1 (h3 hl)
        have hv' := ht2 _ hlt
        refine ⟨hv', ?_⟩
        by_contra hc
        have : l ∈ ls := (hls l).2 ⟨hv', by simpa using hc⟩
        exact ht1 l (ht3 this) hlt
      have hi' := hi.addIc (cons := cons) hm hp hs
      have hlt : mu nv vars imps (ics ++ [c]) < mu nv vars imps ics :=
        mu_lt hi.vars' hi'.vars' (fun u hu => ⟨hu.amo, hu.blk, fun Q hQ => hu.hit Q (by simp [hQ])⟩) hm (fun hc => by
          obtain ⟨l, hl, hf⟩ := hc.hit c (by simp)
          have := (hs l hl).2
          rw [hf] at this; cases this)
      obtain ⟨h1, h2⟩ := loop_spec ho cons hn k n' _ _ _ hi'
      exact ⟨h1, fun hk => h2 (by omega)⟩

theorem linv_init {o : Orc α} {max : Bool} (ho : o.Ok max) (cons : Bool) (nv : Lit α → α) (f : Fm α) :
    LInv nv f (o.ordV f.vars.dedup) [constraint cons nv (o.ordV f.vars.dedup)] [] [] := by
  refine ⟨fun v => ?_, fun l hl => ?_, fun x => ?_, by simp, by simp, by simp, by simp⟩
  · have : Holds v [constraint cons nv (o.ordV f.vars.dedup)] ↔ (constraint cons nv (o.ordV f.vars.dedup)).eval v = true := by simp [Holds]
    rw [this, constraint_eval]
    exact ⟨fun h => ⟨h, by simp, by simp⟩, fun h => h.amo⟩
  · refine ⟨_, List.mem_singleton.2 rfl, ?_⟩
    unfold constraint
    refine tAnd_cc_vars cons _ (fun g hg => ?_) _ (List.mem_map.2 ⟨l.var, hl, rfl⟩) _ ?_
    · obtain ⟨x, _, rfl⟩ := List.mem_map.1 hg
      exact ⟨.le, 1, _, rfl⟩
    · obtain ⟨x, p⟩ := l
      cases p <;> simp [tCC]
  · rw [(ho.ordV _).mem_iff, List.mem_dedup]

/-- the result of `computeGeneric` -/
theorem generic_spec {o : Orc α} {max : Bool} (ho : o.Ok max) (cons : Bool) {nv : Lit α → α} {old : α → Lit α} (hn : Nv nv old) (fuel : Nat) (f : Fm α)
    {A B : List (List (Lit α))} (h : computeGeneric o cons max nv old fuel f = .ok A B) :
    (∀ P ∈ A, PrimeImplicant f P) ∧ (∀ C ∈ B, PrimeImplicate f C) ∧ (∀ P, Implicant f P → ∃ Q ∈ A, Q ⊆ P) ∧
    (∀ v, (∀ C ∈ B, ClauseTrue v C) → f.eval v = true) ∧ A.Pairwise (fun P Q => ¬ P ⊆ Q) ∧ B.Pairwise (fun C D => ¬ C ⊆ D) := by
  obtain ⟨h', hi, hu⟩ := (loop_spec ho cons hn fuel 1 _ _ _ (linv_init ho cons nv f)).1 A B h
  have hno : ∀ v, ¬ HM nv (o.ordV f.vars.dedup) A B v := fun v hv => hu ⟨v, (hi.holds v).2 hv⟩
  refine ⟨fun P hP => (hi.prImp P hP).1, fun C hC => (hi.prIc C hC).1, fun P hP => ?_, fun w hw => ?_, hi.impsNe, hi.icsNe⟩
  · by_contra hc
    have hv : ∀ l, (fun y => decide (old y ∈ P)) (nv l) = true ↔ l ∈ P := fun l => by simp [hn.old_nv]
    refine hno (fun y => decide (old y ∈ P)) ⟨fun l _ hl => ?_, fun Q hQ => ?_, fun C hC => ?_⟩
    · rw [hv] at hl
      by_contra h2
      rw [Bool.not_eq_false, hv] at h2
      exact hP.cons l hl h2
    · by_contra h2
      refine hc ⟨Q, hQ, fun l hl => ?_⟩
      by_contra h3
      exact h2 ⟨l, hl, by rw [← Bool.not_eq_true, hv]; exact h3⟩
    · have hC' := (hi.prIc C hC).1.isImp
      obtain ⟨l, h1, h2⟩ := meet hP.cons hC'.cons fun v hv => hC'.imp v (hP.imp v hv)
      exact ⟨l, h1, (hv l).2 h2⟩
  · by_contra hf
    have hv : ∀ l, (old (nv l)).eval w = l.eval w := fun l => by simp [hn.old_nv]
    refine hno (fun y => (old y).eval w) ⟨fun l _ hl => ?_, fun P hP => ?_, fun C hC => ?_⟩
    · rw [hv] at hl ⊢
      rw [Lit.eval_neg, hl]; rfl
    · by_contra hc
      exact hf ((hi.prImp P hP).1.isImp.imp w fun l hl => by
        by_contra h2
        exact hc ⟨l, hl, by rw [hv]; simpa using h2⟩)
    · obtain ⟨l, hl, ht⟩ := hw C hC
      exact ⟨l, hl, by rw [hv]; exact ht⟩

/-- implicants of the negation -/
theorem implicant_not {f : Fm α} {P : List (Lit α)} : Implicant (tNot f) P ↔ Implicate f (P.map Lit.neg) := by
  constructor
  · intro h
    refine ⟨h.cons.negs, fun v hv => ?_⟩
    rw [clauseTrue_negs]
    intro ht
    have := h.imp v ht
    simp [hv] at this
  · intro h
    refine ⟨by have := h.cons.negs; rwa [negs_negs] at this, fun v hv => ?_⟩
    rw [eval_tNot]
    by_contra hc
    exact clauseTrue_negs.1 (h.imp v (by simpa using hc)) hv
theorem implicate_not {f : Fm α} {C : List (Lit α)} : Implicate (tNot f) C ↔ Implicant f (C.map Lit.neg) := by
  constructor
  · intro h
    refine ⟨h.cons.negs, fun v hv => ?_⟩
    by_contra hc
    rw [termTrue_negs] at hv
    exact hv (h.imp v (by simpa using hc))
  · intro h
    refine ⟨by have := h.cons.negs; rwa [negs_negs] at this, fun v hv => ?_⟩
    by_contra hc
    have := h.imp v (termTrue_negs.2 hc)
    simp [this] at hv
theorem negs_sub {P Q : List (Lit α)} : P.map Lit.neg ⊆ Q.map Lit.neg ↔ P ⊆ Q := by
  constructor
  · intro h l hl
    have := h (List.mem_map.2 ⟨l, hl, rfl⟩)
    rwa [mem_negs, neg_neg] at this
  · exact List.map_subset _
theorem primeImplicant_not {f : Fm α} {P : List (Lit α)} (h : PrimeImplicant (tNot f) P) : PrimeImplicate f (P.map Lit.neg) := by
  refine ⟨implicant_not.1 h.isImp, fun D hD hi => ?_⟩
  have := h.min (D.map Lit.neg) (by rw [← negs_sub, negs_negs]; exact hD) (implicant_not.2 (by rwa [negs_negs]))
  rw [← negs_sub, negs_negs] at this
  exact this
theorem primeImplicate_not {f : Fm α} {P : List (Lit α)} (h : PrimeImplicate (tNot f) P) : PrimeImplicant f (P.map Lit.neg) := by
  refine ⟨implicate_not.1 h.isImp, fun D hD hi => ?_⟩
  have := h.min (D.map Lit.neg) (by rw [← negs_sub, negs_negs]; exact hD) (implicate_not.2 (by rwa [negs_negs]))
  rw [← negs_sub, negs_negs] at this
  exact this

/-! ## theorems -/

/-- C37: `CoverMin` and `CoverMax` with any handler: all results are prime implicants and prime implicates; the side asked for is
complete (every implicant of the formula contains a found one; dually for implicates); both sides are covers of the formula, and nothing is found twice. -/
theorem C37_cover {o : Orc α} {max : Bool} (ho : o.Ok max) (cons impl : Bool) {nv : Lit α → α} {old : α → Lit α} (hn : Nv nv old) (fuel : Nat) (f : Fm α)
    {A B : List (List (Lit α))} (h : compute o cons impl max nv old fuel f = .ok A B) :
    (∀ P ∈ A, PrimeImplicant f P) ∧ (∀ C ∈ B, PrimeImplicate f C) ∧
    (impl = true → ∀ P, PrimeImplicant f P → ∃ Q ∈ A, ∀ l, l ∈ Q ↔ l ∈ P) ∧
    (impl = false → ∀ C, PrimeImplicate f C → ∃ D ∈ B, ∀ l, l ∈ D ↔ l ∈ C) ∧
    (∀ v, f.eval v = true ↔ ∃ P ∈ A, TermTrue v P) ∧ (∀ v, f.eval v = true ↔ ∀ C ∈ B, ClauseTrue v C) ∧
    A.Pairwise (fun P Q => ¬ P ⊆ Q) ∧ B.Pairwise (fun C D => ¬ C ⊆ D) := by
  unfold compute at h
  by_cases hg : o.go 0
  · rw [if_pos hg] at h
    -- the implicants found by the generic computation cover its formula
    have hcov : ∀ {g : Fm α} {A : List (List (Lit α))}, (∀ P, Implicant g P → ∃ Q ∈ A, Q ⊆ P) → ∀ v, g.eval v = true → ∃ P ∈ A, TermTrue v P := by
      intro g A hA v hv
      have hT : TermTrue v ((g.vars.map fun x => (⟨x, v x⟩ : Lit α))) := by
        intro l hl
        obtain ⟨x, _, rfl⟩ := List.mem_map.1 hl
        cases hx : v x <;> simp [Lit.eval, hx]
      obtain ⟨Q, hQ, hs⟩ := hA (g.vars.map fun x => (⟨x, v x⟩ : Lit α)) ⟨consistent_of hT, fun u hu => by
        rw [← hv]
        refine Fm.eval_congr g fun x hx => ?_
        have := hu ⟨x, v x⟩ (List.mem_map.2 ⟨x, hx, rfl⟩)
        cases hx : v x <;> simpa [Lit.eval, hx] using this⟩
      exact ⟨Q, hQ, fun l hl => hT l (hs hl)⟩
    cases impl with
    | true =>
      simp only [if_true] at h
      cases hr : computeGeneric o cons max nv old fuel f with
      | ok a b =>
        rw [hr] at h
        simp only [Out.ok.injEq] at h
        obtain ⟨rfl, rfl⟩ := h
        obtain ⟨h1, h2, h3, h4, h5, h6⟩ := generic_spec ho cons hn fuel f hr
        refine ⟨h1, h2, fun _ P hP => ?_, fun e => (by simp at e), fun v => ⟨hcov h3 v, ?_⟩, fun v => ⟨fun hv C hC => (h2 C hC).isImp.imp v hv, h4 v⟩, h5, h6⟩
        · obtain ⟨Q, hQ, hs⟩ := h3 P hP.isImp
          exact ⟨Q, hQ, fun l => ⟨fun hl => hs hl, fun hl => hP.min Q hs (h1 Q hQ).isImp hl⟩⟩
        · rintro ⟨P, hP, hv⟩
          exact (h1 P hP).isImp.imp v hv
      | canceled => rw [hr] at h; cases h
      | fuel => rw [hr] at h; cases h
    | false =>
      simp only [Bool.false_eq_true, if_false] at h
      cases hr : computeGeneric o cons max nv old fuel (tNot f) with
      | ok a b =>
        rw [hr] at h
        simp only [Out.ok.injEq] at h
        obtain ⟨rfl, rfl⟩ := h
        obtain ⟨h1, h2, h3, h4, h5, h6⟩ := generic_spec ho cons hn fuel (tNot f) hr
        have hA : ∀ P ∈ b.map (·.map Lit.neg), PrimeImplicant f P := by
          intro P hP
          obtain ⟨Q, hQ, rfl⟩ := List.mem_map.1 hP
          exact primeImplicate_not (h2 Q hQ)
        have hB : ∀ P ∈ a.map (·.map Lit.neg), PrimeImplicate f P := by
          intro P hP
          obtain ⟨Q, hQ, rfl⟩ := List.mem_map.1 hP
          exact primeImplicant_not (h1 Q hQ)
        refine ⟨hA, hB, fun e => (by simp at e), fun _ C hC => ?_, fun v => ⟨fun hv => ?_, ?_⟩, fun v => ⟨fun hv C hC => (hB C hC).isImp.imp v hv, fun hv => ?_⟩, ?_, ?_⟩
        · obtain ⟨Q, hQ, hs⟩ := h3 (C.map Lit.neg) (implicant_not.2 (by rw [negs_negs]; exact hC.isImp))
          have hs' : Q.map Lit.neg ⊆ C := by rw [← negs_sub, negs_negs]; exact hs
          exact ⟨Q.map Lit.neg, List.mem_map.2 ⟨Q, hQ, rfl⟩, fun l => ⟨fun hl => hs' hl, fun hl => hC.min _ hs' (implicant_not.1 (h1 Q hQ).isImp) hl⟩⟩
        · by_contra hc
          have := h4 v fun C hC => by
            by_contra h'
            exact hc ⟨C.map Lit.neg, List.mem_map.2 ⟨C, hC, rfl⟩, termTrue_negs.2 h'⟩
          simp [hv] at this
        · rintro ⟨P, hP, hv⟩
          exact (hA P hP).isImp.imp v hv
        · by_contra hf
          obtain ⟨P, hP, ht⟩ := hcov h3 v (by simpa using hf)
          exact clauseTrue_negs.1 (hv _ (List.mem_map.2 ⟨P, hP, rfl⟩)) ht
        · rw [List.pairwise_map]
          exact h6.imp fun h hs => h (negs_sub.1 hs)
        · rw [List.pairwise_map]
          exact h5.imp fun h hs => h (negs_sub.1 hs)
      | canceled => rw [hr] at h; cases h
      | fuel => rw [hr] at h; cases h
  · rw [if_neg hg] at h; cases h

/-- C37: the computation ends after at most `4 ^ n + 1` rounds for a formula with `n` variables -/
theorem C37_terminates {o : Orc α} {max : Bool} (ho : o.Ok max) (cons impl : Bool) {nv : Lit α → α} {old : α → Lit α} (hn : Nv nv old) (fuel : Nat) (f : Fm α)
    (hf : 4 ^ f.vars.dedup.length < fuel) : compute o cons impl max nv old fuel f ≠ .fuel := by
  unfold compute
  by_cases hg : o.go 0
  · rw [if_pos hg]
    obtain ⟨g, hgg⟩ : ∃ g, (if impl then f else tNot f) = g := ⟨_, rfl⟩
    have hgv : g.vars = f.vars := by rw [← hgg]; cases impl <;> simp
    rw [hgg]
    have := (loop_spec ho cons hn fuel 1 _ _ _ (linv_init ho cons nv g)).2 (by
      refine Nat.lt_of_le_of_lt (mu_le _ _ _ _) ?_
      rw [(ho.ordV _).length_eq, hgv]
      exact hf)
    cases hr : computeGeneric o cons max nv old fuel g with
    | ok a b => cases impl <;> simp
    | canceled => simp
    | fuel => exact absurd hr this
  · rw [if_neg hg]; simp

/-- nothing is cancelled -/
structure Orc.Total (o : Orc α) : Prop where
  opt : ∀ n h ls, o.opt n h ls ≠ none
  sat : ∀ n f as, o.sat n f as ≠ none
  mdl : ∀ n f as vs, o.mdl n f as vs ≠ none
  go : ∀ n, o.go n = true

theorem reduceLoop_total {o : Orc α} (ht : o.Total) (base : Fm α) (asm : Lit α → Lit α) : ∀ (ls cur : List (Lit α)) (n : Nat), reduceLoop o base asm ls cur n ≠ none
  | [], cur, n => by simp [reduceLoop]
  | l :: ls, cur, n => by
    simp only [reduceLoop]
    cases h : o.sat n base ((o.ordL (cur.filter (· ≠ l))).map asm) with
    | none => exact absurd h (ht.sat _ _ _)
    | some b => cases b <;> exact reduceLoop_total ht base asm _ _ _
theorem reduce_total {o : Orc α} (ht : o.Total) (base : Fm α) (asm : Lit α → Lit α) (ls : List (Lit α)) (n : Nat) : reduce o base asm ls n ≠ none := by
  unfold reduce
  rw [if_pos (ht.go n)]
  cases h : reduceLoop o base asm ls ls.dedup (n + 1) with
  | none => exact absurd h (reduceLoop_total ht _ _ _ _ _)
  | some r => simp
theorem loop_total {o : Orc α} (ht : o.Total) (cons max : Bool) (nv : Lit α → α) (old : α → Lit α) (f : Fm α) (vars : List α) :
    ∀ (k n : Nat) (h : List (Fm α)) (imps ics : List (List (Lit α))), loop o cons max nv old f vars k n h imps ics ≠ .canceled
  | 0, n, h, imps, ics => by simp [loop]
  | k + 1, n, h, imps, ics => by
    rw [loop]
    split
    · rename_i h1; exact absurd h1 (ht.opt _ _ _)
    · simp
    · dsimp only
      split
      · rename_i h1; exact absurd h1 (ht.mdl _ _ _ _)
      · split
        · rename_i h1
          split at h1
          · exact absurd h1 (reduce_total ht _ _ _ _)
          · cases h1
        · exact loop_total ht cons max nv old f vars k _ _ _ _
      · split
        · rename_i h1; exact absurd h1 (reduce_total ht _ _ _ _)
        · exact loop_total ht cons max nv old f vars k _ _ _ _

/-- C37: without cancellation the computation succeeds -/
theorem C37_succeeds {o : Orc α} {max : Bool} (ho : o.Ok max) (ht : o.Total) (cons impl : Bool) {nv : Lit α → α} {old : α → Lit α} (hn : Nv nv old) (f : Fm α) :
    ∃ A B, compute o cons impl max nv old (4 ^ f.vars.dedup.length + 1) f = .ok A B := by
  have h1 := C37_terminates ho cons impl hn (4 ^ f.vars.dedup.length + 1) f (Nat.lt_succ_self _)
  unfold compute at h1 ⊢
  rw [if_pos (ht.go 0)] at h1 ⊢
  cases hr : computeGeneric o cons max nv old (4 ^ f.vars.dedup.length + 1) (if impl then f else tNot f) with
  | ok a b => cases impl <;> exact ⟨_, _, rfl⟩
  | canceled => exact absurd hr (loop_total ht _ _ _ _ _ _ _ _ _ _ _)
  | fuel => rw [hr] at h1; exact absurd rfl h1

/-! ## the hypotheses can be met -/

theorem exists_optimal (max : Bool) (h : List (Fm α)) (ls : List (Lit α)) (hs : ∃ v, Holds v h) : ∃ v, Optimal max h ls v := by
  classical
  have hle : ∀ v : α → Bool, numTrue v ls ≤ ls.length := fun v => List.length_filter_le _ _
  have hex : ∃ n, ∃ v, Holds v h ∧ (if max then ls.length - numTrue v ls else numTrue v ls) = n := by
    obtain ⟨v, hv⟩ := hs
    exact ⟨_, v, hv, rfl⟩
  obtain ⟨v, hv, he⟩ := Nat.find_spec hex
  refine ⟨v, hv, fun w hw => ?_⟩
  have hm := Nat.find_min' hex ⟨w, hw, rfl⟩
  rw [← he] at hm
  have h1 := hle v
  have h2 := hle w
  cases max
  · simpa using hm
  · simp only [if_true] at hm ⊢
    omega

theorem exists_ok (max : Bool) : ∃ o : Orc α, o.Ok max ∧ o.Total := by
  classical
  refine ⟨{
    opt := fun _ h ls => if hs : ∃ v, Holds v h then some (some (exists_optimal max h ls hs).choose) else some none
    sat := fun _ f as => some (decide (∃ v, f.eval v = true ∧ TermTrue v as))
    mdl := fun _ f as vs => if hs : ∃ v, f.eval v = true ∧ TermTrue v as then some (some (vs.map fun x => ⟨x, hs.choose x⟩)) else some none
    go := fun _ => true
    ordV := id
    ordL := id }, ⟨?_, ?_, ?_, ?_, ?_, fun _ => List.Perm.refl _, fun _ => List.Perm.refl _⟩, ⟨?_, ?_, ?_, fun _ => rfl⟩⟩
  · intro n h ls e
    dsimp only at e
    split at e
    · cases e
    · assumption
  · intro n h ls v e
    dsimp only at e
    split at e
    · rename_i hs
      simp only [Option.some.injEq] at e
      subst e
      exact (exists_optimal max h ls hs).choose_spec
    · cases e
  · intro n f as b e
    simp only [Option.some.injEq] at e
    subst e
    exact decide_eq_true_iff
  · intro n f as vs e
    dsimp only at e
    split at e
    · cases e
    · assumption
  · intro n f as vs m e
    dsimp only at e
    split at e
    · rename_i hs
      simp only [Option.some.injEq] at e
      subst e
      have hsp := hs.choose_spec
      obtain ⟨v, hv⟩ : ∃ v, hs.choose = v := ⟨_, rfl⟩
      rw [hv] at hsp ⊢
      refine ⟨⟨v, fun l hl => ?_⟩, fun l hl => ?_, fun l hl hx => ?_, fun hx u hu => ?_⟩
      · obtain ⟨x, _, rfl⟩ := List.mem_map.1 hl
        cases hx : v x <;> simp [Lit.eval, hx]
      · obtain ⟨x, hx, rfl⟩ := List.mem_map.1 hl
        exact hx
      · refine List.mem_map.2 ⟨l.var, hx, ?_⟩
        have := hsp.2 l hl
        obtain ⟨x, p⟩ := l
        cases p <;> simpa [Lit.eval] using this
      · rw [← hsp.1]
        refine Fm.eval_congr f fun x hxf => ?_
        have := hu ⟨x, v x⟩ (List.mem_map.2 ⟨x, hx x hxf, rfl⟩)
        cases hvx : v x <;> simpa [Lit.eval, hvx] using this
    · cases e
  · intro n h ls
    dsimp only
    split <;> simp
  · intro n f as; simp
  · intro n f as vs
    dsimp only
    split <;> simp

/-- the names of the code: the suffix separates the literals -/
def nvName (l : Lit (List Char)) : List Char := l.var ++ (if l.pos then ['_', 'P', 'O', 'S'] else ['_', 'N', 'E', 'G'])
def oldName (s : List Char) : Lit (List Char) := ⟨s.take (s.length - 4), s.drop (s.length - 4) == ['_', 'P', 'O', 'S']⟩
theorem nvName_ok : Nv nvName oldName := by
  refine ⟨fun l => ?_⟩
  obtain ⟨x, p⟩ := l
  cases p <;> simp [nvName, oldName]

/-- `(a ∧ b) ∨ (¬a ∧ c)` has the prime implicant `b ∧ c`, which is in every result for implicants -/
def exCov : Fm Nat := .or [.and [.lit ⟨0, true⟩, .lit ⟨1, true⟩], .and [.lit ⟨0, false⟩, .lit ⟨2, true⟩]]
example : PrimeImplicant exCov [⟨1, true⟩, ⟨2, true⟩] := by
  refine ⟨⟨by unfold Consistent; decide, fun v hv => ?_⟩, fun Q hQ hi l hl => ?_⟩
  · have h1 := hv ⟨1, true⟩ (by simp)
    have h2 := hv ⟨2, true⟩ (by simp)
    simp only [Lit.eval, if_true] at h1 h2
    cases h0 : v 0 <;> simp [exCov, Lit.eval, h0, h1, h2]
  · by_contra hc
    have hcons : Consistent Q := hi.cons
    -- make the missing literal false and choose `a` such that it matters
    let v : Nat → Bool := fun x => if x = l.var then false else if x = 0 then decide (l.var = 1) else true
    have := hi.imp v fun m hm => by
      have hm' := hQ hm
      simp only [List.mem_cons, List.not_mem_nil, or_false] at hm' hl
      rcases hm' with rfl | rfl <;> rcases hl with rfl | rfl <;> first | exact absurd hm hc | simp [v, Lit.eval]
    simp only [List.mem_cons, List.not_mem_nil, or_false] at hl
    rcases hl with rfl | rfl <;> simp [exCov, Lit.eval, v] at this
example (nv : Lit Nat → Nat) (old : Nat → Lit Nat) (hn : Nv nv old) : ∃ (o : Orc Nat) (A B : _), o.Ok true ∧ compute o false true true nv old 65 exCov = .ok A B := by
  obtain ⟨o, h1, h2⟩ := exists_ok (α := Nat) true
  obtain ⟨A, B, h⟩ := C37_succeeds h1 h2 false true hn exCov
  exact ⟨o, A, B, h1, h⟩

end Verif.Prime
