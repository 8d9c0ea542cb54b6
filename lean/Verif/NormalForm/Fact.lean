import Mathlib.Data.List.Forall2
import Verif.NormalForm.Lemmas
namespace Verif.NF
open Verif Verif.Tree Verif.Spec
variable {α : Type} [DecidableEq α]

/-! ### normal forms for both dualities -/

def isCl (d : Bool) (f : Fm α) : Bool := if d then isClause f else isMinterm f
def isNF (d : Bool) (f : Fm α) : Bool := if d then isCNF f else isDNF f
/-- truth value seen from the CNF (`d = true`) or the DNF (`d = false`) side -/
def ev (d : Bool) (v : α → Bool) (f : Fm α) : Bool := f.eval v == d

omit [DecidableEq α] in
theorem all_ev_true (v : α → Bool) (fs : List (Fm α)) : fs.all (ev true v) = fs.all (Fm.eval v) := by
  congr 1; funext f; simp [ev]
omit [DecidableEq α] in
theorem all_ev_false (v : α → Bool) (fs : List (Fm α)) : fs.all (ev false v) = !fs.any (Fm.eval v) := by
  induction fs with
  | nil => rfl
  | cons f fs ih => rw [List.all_cons, List.any_cons, ih]; simp [ev]
omit [DecidableEq α] in
theorem any_ev_true (v : α → Bool) (fs : List (Fm α)) : fs.any (ev true v) = fs.any (Fm.eval v) := by
  congr 1; funext f; simp [ev]
omit [DecidableEq α] in
theorem any_ev_false (v : α → Bool) (fs : List (Fm α)) : fs.any (ev false v) = !fs.all (Fm.eval v) := by
  induction fs with
  | nil => rfl
  | cons f fs ih => rw [List.all_cons, List.any_cons, ih]; simp [ev]

theorem ev_outerJoin (c d : Bool) (v : α → Bool) (fs : List (Fm α)) : ev d v (outerJoin c d fs) = fs.all (ev d v) := by
  cases d
  · rw [all_ev_false]; simp [ev, outerJoin]
  · rw [all_ev_true]; simp [ev, outerJoin]
theorem ev_innerJoin (c d : Bool) (v : α → Bool) (fs : List (Fm α)) : ev d v (innerJoin c d fs) = fs.any (ev d v) := by
  cases d
  · rw [any_ev_false]; simp [ev, innerJoin]
  · rw [any_ev_true]; simp [ev, innerJoin]
omit [DecidableEq α] in
theorem ev_outerOps {d : Bool} {f : Fm α} {fs : List (Fm α)} (h : outerOps d f = some fs) (v : α → Bool) : ev d v f = fs.all (ev d v) := by
  cases f <;> simp [outerOps] at h
  · obtain ⟨rfl, rfl⟩ := h; rw [all_ev_true]; simp [ev]
  · obtain ⟨rfl, rfl⟩ := h; rw [all_ev_false]; simp [ev]

omit [DecidableEq α] in
theorem isNF_tru (d : Bool) : isNF d (.tru : Fm α) = true := by cases d <;> rfl
omit [DecidableEq α] in
theorem isNF_fls (d : Bool) : isNF d (.fls : Fm α) = true := by cases d <;> rfl
omit [DecidableEq α] in
theorem isNF_lit (d : Bool) (l : Lit α) : isNF d (.lit l) = true := by cases d <;> rfl
omit [DecidableEq α] in
theorem isNF_of_isCl {d : Bool} {f : Fm α} (h : isCl d f = true) : isNF d f = true := by
  cases d <;> cases f <;> simp_all [isCl, isNF, isClause, isMinterm, isCNF, isDNF]
omit [DecidableEq α] in
/-- a normal form is a constant, a clause or an outer node over clauses -/
theorem isNF_cases {d : Bool} {f : Fm α} (h : isNF d f = true) :
    f = .tru ∨ f = .fls ∨ (outerOps d f = none ∧ isCl d f = true) ∨ ∃ ops, outerOps d f = some ops ∧ ∀ g ∈ ops, isCl d g = true := by
  cases d <;> cases f <;> simp_all [isCl, isNF, isCNF, isDNF, outerOps, isClause, isMinterm]
omit [DecidableEq α] in
theorem isNF_outer {d : Bool} {f : Fm α} {ops : List (Fm α)} (h : isNF d f = true) (e : outerOps d f = some ops) :
    ∀ g ∈ ops, isCl d g = true := by
  cases d <;> cases f <;> simp_all [isCl, isNF, isCNF, isDNF, outerOps]
omit [DecidableEq α] in
theorem isNF_inner {d : Bool} {f : Fm α} (h : isNF d f = true) (e : outerOps d f = none) : f = .tru ∨ f = .fls ∨ isCl d f = true := by
  cases d <;> cases f <;> simp_all [isCl, isNF, isCNF, isDNF, outerOps, isClause, isMinterm]

theorem isNF_outerJoin {c d : Bool} {fs : List (Fm α)} (h : ∀ f ∈ fs, isNF d f = true) : isNF d (outerJoin c d fs) = true := by
  cases d with
  | true =>
    have key : ∀ g, AndOp fs g → isClause g = true := by
      rintro g ⟨h1, h2, ⟨h3, h4⟩ | ⟨gs, h3, h4⟩⟩
      · have := h g h3
        cases g <;> simp_all [isNF, isCNF]
      · have := h _ h3
        simp only [isNF, if_true, isCNF, List.all_eq_true] at this
        exact this g h4
    refine tAnd_elim (P := fun f => isNF true f = true) rfl rfl (fun g hg => isNF_of_isCl (d := true) (key g hg)) ?_
    intro a _ _ h
    simp only [isNF, if_true, isCNF, List.all_eq_true]
    exact fun g hg => key g (h g hg)
  | false =>
    have key : ∀ g, OrOp fs g → isMinterm g = true := by
      rintro g ⟨h1, h2, ⟨h3, h4⟩ | ⟨gs, h3, h4⟩⟩
      · have := h g h3
        cases g <;> simp_all [isNF, isDNF]
      · have := h _ h3
        simp only [isNF, Bool.false_eq_true, if_false, isDNF, List.all_eq_true] at this
        exact this g h4
    refine tOr_elim (P := fun f => isNF false f = true) rfl rfl (fun g hg => isNF_of_isCl (d := false) (key g hg)) ?_
    intro a _ _ h
    simp only [isNF, Bool.false_eq_true, if_false, isDNF, List.all_eq_true]
    exact fun g hg => key g (h g hg)

theorem isNF_innerJoin {c d : Bool} {fs : List (Fm α)} (h : ∀ f ∈ fs, f = .tru ∨ f = .fls ∨ isCl d f = true) :
    isNF d (innerJoin c d fs) = true := by
  cases d with
  | true =>
    have key : ∀ g, OrOp fs g → isLit g = true := by
      rintro g ⟨h1, h2, ⟨h3, h4⟩ | ⟨gs, h3, h4⟩⟩
      · have := h g h3
        cases g <;> simp_all [isCl, isClause, isLit]
      · have := h _ h3
        simp only [reduceCtorEq, false_or, isCl, if_true, isClause, List.all_eq_true] at this
        exact this g h4
    refine tOr_elim (P := fun f => isNF true f = true) rfl rfl ?_ ?_
    · intro g hg; have := key g hg; cases g <;> simp_all [isLit, isNF, isCNF, isClause]
    intro a _ _ h
    simp only [isNF, if_true, isCNF, isClause, List.all_eq_true]
    exact fun g hg => key g (h g hg)
  | false =>
    have key : ∀ g, AndOp fs g → isLit g = true := by
      rintro g ⟨h1, h2, ⟨h3, h4⟩ | ⟨gs, h3, h4⟩⟩
      · have := h g h3
        cases g <;> simp_all [isCl, isMinterm, isLit]
      · have := h _ h3
        simp only [reduceCtorEq, false_or, isCl, Bool.false_eq_true, if_false, isMinterm, List.all_eq_true] at this
        exact this g h4
    refine tAnd_elim (P := fun f => isNF false f = true) rfl rfl ?_ ?_
    · intro g hg; have := key g hg; cases g <;> simp_all [isLit, isNF, isDNF, isMinterm]
    intro a _ _ h
    simp only [isNF, Bool.false_eq_true, if_false, isDNF, isMinterm, List.all_eq_true]
    exact fun g hg => key g (h g hg)

/-! ### distribution -/

section
variable {σ : Type}

omit [DecidableEq α] in
@[simp] theorem ask_cache (h : Hdl σ) (e : Ev) (s : FS σ α) : (ask h e s).2.cache = s.cache := rfl

mutual
theorem distribute_spec (c d : Bool) (h : Hdl σ) (f1 f2 : Fm α) (s : FS σ α) :
    (distribute c d h f1 f2 s).2.cache = s.cache ∧
    ((distribute c d h f1 f2 s).1.2 = true →
      (∀ v, ev d v (distribute c d h f1 f2 s).1.1 = (ev d v f1 || ev d v f2)) ∧
      (isNF d f1 = true → isNF d f2 = true → isNF d (distribute c d h f1 f2 s).1.1 = true)) := by
  rw [distribute]
  simp only
  split
  · simp
  split
  · rename_i ops e1
    have := outerOps_size e1
    have ih := distributeL_spec c d h ops f2 (ask h .distribution s).2
    split
    · exact ⟨by simp [ih.1], by simp⟩
    · rename_i h2
      have ih2 := ih.2 (by simpa using h2)
      refine ⟨by simp [ih.1], fun _ => ⟨fun v => ?_, fun n1 n2 => ?_⟩⟩
      · simp only [ev_outerJoin, ih2.1, ev_outerOps e1]
      · exact isNF_outerJoin (ih2.2 (fun g hg => isNF_of_isCl (isNF_outer n1 e1 g hg)) n2)
  · rename_i e1
    split
    · rename_i ops e2
      have := outerOps_size e2
      have ih := distributeL_spec c d h ops f1 (ask h .distribution s).2
      split
      · exact ⟨by simp [ih.1], by simp⟩
      · rename_i h2
        have ih2 := ih.2 (by simpa using h2)
        refine ⟨by simp [ih.1], fun _ => ⟨fun v => ?_, fun n1 n2 => ?_⟩⟩
        · simp only [ev_outerJoin, ih2.1, ev_outerOps e2, Bool.or_comm]
        · exact isNF_outerJoin (ih2.2 (fun g hg => isNF_of_isCl (isNF_outer n2 e2 g hg)) n1)
    · rename_i e2
      refine ⟨by simp, fun _ => ⟨fun v => ?_, fun n1 n2 => ?_⟩⟩
      · simp [ev_innerJoin]
      · refine isNF_innerJoin ?_
        intro f hf
        simp only [List.mem_cons, List.not_mem_nil, or_false] at hf
        rcases hf with rfl | rfl
        · exact isNF_inner n1 e1
        · exact isNF_inner n2 e2
termination_by sizeOf f1 + sizeOf f2
theorem distributeL_spec (c d : Bool) (h : Hdl σ) (ops : List (Fm α)) (form : Fm α) (s : FS σ α) :
    (distributeL c d h ops form s).2.cache = s.cache ∧
    ((distributeL c d h ops form s).1.2 = true →
      (∀ v, (distributeL c d h ops form s).1.1.all (ev d v) = (ops.all (ev d v) || ev d v form)) ∧
      ((∀ f ∈ ops, isNF d f = true) → isNF d form = true → ∀ g ∈ (distributeL c d h ops form s).1.1, isNF d g = true)) := by
  match ops with
  | [] => rw [distributeL]; simp
  | op :: ops =>
    rw [distributeL]
    have i1 := distribute_spec c d h op form s
    have i2 := distributeL_spec c d h ops form (distribute c d h op form s).2
    simp only
    split
    · exact ⟨i1.1, by simp⟩
    · rename_i h1
      have i1' := i1.2 (by simpa using h1)
      refine ⟨by rw [← i1.1]; exact i2.1, fun h2 => ?_⟩
      have i2' := i2.2 h2
      refine ⟨fun v => ?_, fun n1 n2 => ?_⟩
      · simp only [List.all_cons, i1'.1, i2'.1]
        cases ev d v op <;> cases ev d v form <;> simp
      · intro g hg
        rcases List.mem_cons.1 hg with rfl | hg
        · exact i1'.2 (n1 op (by simp)) n2
        · exact i2'.2 (fun f hf => n1 f (by simp [hf])) n2 g hg
termination_by sizeOf ops + sizeOf form
end

theorem distAll_spec (c d : Bool) (h : Hdl σ) : ∀ (fs : List (Fm α)) (acc : Fm α) (s : FS σ α),
    (distAll c d h acc fs s).2.cache = s.cache ∧
    ((distAll c d h acc fs s).1.2 = true →
      (∀ v, ev d v (distAll c d h acc fs s).1.1 = (acc :: fs).any (ev d v)) ∧
      ((∀ f ∈ acc :: fs, isNF d f = true) → isNF d (distAll c d h acc fs s).1.1 = true))
  | [], acc, s => by simp [distAll]
  | f :: fs, acc, s => by
    have i1 := distribute_spec c d h acc f s
    have i2 := distAll_spec c d h fs (distribute c d h acc f s).1.1 (distribute c d h acc f s).2
    rw [distAll]

    split
    · exact ⟨i1.1, by simp⟩
    · rename_i h1
      have i1' := i1.2 (by simpa using h1)
      refine ⟨by rw [i2.1, i1.1], fun h2 => ⟨fun v => ?_, fun n => ?_⟩⟩
      · rw [(i2.2 h2).1 v]; simp only [List.any_cons, i1'.1, Bool.or_assoc]
      · refine (i2.2 h2).2 ?_
        intro g hg
        rcases List.mem_cons.1 hg with rfl | hg
        · exact i1'.2 (n acc (by simp)) (n f (by simp))
        · exact n g (by simp [hg])

end

/-! ### the recursion -/

/-- one direction of the equivalence of `f` and `g` at `v`: `b = true`: `g` implies `f`; `b = false`: `f` implies `g` -/
def Rel (b : Bool) (v : α → Bool) (f g : Fm α) : Prop :=
  if b then (g.eval v = true → f.eval v = true) else (f.eval v = true → g.eval v = true)

omit [DecidableEq α] in
theorem Rel.refl (b : Bool) (v : α → Bool) (f : Fm α) : Rel b v f f := by cases b <;> simp [Rel]
omit [DecidableEq α] in
theorem Rel.of_eq {b : Bool} {v : α → Bool} {f g : Fm α} (h : g.eval v = f.eval v) : Rel b v f g := by cases b <;> simp [Rel, h]
omit [DecidableEq α] in
theorem Rel.trans {b : Bool} {v : α → Bool} {f g k : Fm α} (h1 : Rel b v f g) (h2 : Rel b v g k) : Rel b v f k := by
  cases b <;> simp only [Rel] at * <;> simp_all
omit [DecidableEq α] in
theorem Rel.all {b : Bool} {v : α → Bool} {fs gs : List (Fm α)} (h : List.Forall₂ (Rel b v) fs gs) : Rel b v (.and fs) (.and gs) := by
  induction h with
  | nil => exact Rel.refl b v _
  | cons h1 _ ih => cases b <;> simp only [Rel, Fm.eval_and, List.all_cons, Bool.and_eq_true] at * <;> simp_all
omit [DecidableEq α] in
theorem Rel.any {b : Bool} {v : α → Bool} {fs gs : List (Fm α)} (h : List.Forall₂ (Rel b v) fs gs) : Rel b v (.or fs) (.or gs) := by
  induction h with
  | nil => exact Rel.refl b v _
  | @cons f g fs gs h1 _ ih =>
    cases b <;> simp only [Rel, Fm.eval_or, List.any_cons, Bool.or_eq_true] at *
    · exact fun h => h.imp h1 ih
    · exact fun h => h.imp h1 ih

section
variable {σ : Type}

/-- invariant of the transformation cache -/
def COK (b : Bool) (v : α → Bool) (d : Bool) (cache : List (Fm α × Fm α)) : Prop :=
  ∀ e ∈ cache, Rel b v e.1 e.2 ∧ isNF d e.2 = true

/-- a call on `f` with result `r` was right -/
def ROK (b : Bool) (v : α → Bool) (d : Bool) (f : Fm α) (r : (Fm α × Bool) × FS σ α) : Prop :=
  COK b v d r.2.cache ∧ (r.1.2 = true → Rel b v f r.1.1 ∧ isNF d r.1.1 = true)

/-- assumption on the encoder of constraints, for those occurring in `f` -/
def EncOK (b : Bool) (v : α → Bool) (enc : Fm α → Fm α) (f : Fm α) : Prop :=
  ∀ g ∈ pbs f, isPB g = true → CoreC (enc g) ∧ Rel b v g (enc g) ∧ isCNF (enc g) = true

omit [DecidableEq α] in
theorem core_pbs (f : Fm α) : CoreC f → pbs f = [] := by
  induction f using Fm.ind with
  | hf => simp [pbs]
  | ht => simp [pbs]
  | hl l => simp [pbs]
  | hn f ih => simp [CoreC, core]
  | ha fs ih =>
    simp only [CoreC, reduceCtorEq, false_or, core_and, Bool.and_eq_true, List.all_eq_true, pbs_and, List.flatMap_eq_nil_iff]
    exact fun h f hf => ih f hf (.inr (.inr (h.2 f hf)))
  | ho fs ih =>
    simp only [CoreC, reduceCtorEq, false_or, core_or, Bool.and_eq_true, List.all_eq_true, pbs_or, List.flatMap_eq_nil_iff]
    exact fun h f hf => ih f hf (.inr (.inr (h.2 f hf)))
  | hi f g h1 h2 => simp [CoreC, core]
  | he f g h1 h2 => simp [CoreC, core]
  | hc c k xs => simp [CoreC, core]
  | hp c k ts => simp [CoreC, core]

theorem nnf_rel {b : Bool} {v : α → Bool} {cons : Bool} {enc : Fm α → Fm α} {f : Fm α} (h : EncOK b v enc f) :
    Rel b v f (nnf cons enc f true) := by
  cases b with
  | true =>
    simp only [Rel, if_true]
    exact nnf_sound f (fun g hg hp => by have := (h g hg hp).2.1; simpa [Rel] using this) true
  | false =>
    simp only [Rel, Bool.false_eq_true, if_false]
    exact nnf_complete f (fun g hg hp => by have := (h g hg hp).2.1; simpa [Rel] using this) true
theorem nnf_coreC {b : Bool} {v : α → Bool} {cons : Bool} {enc : Fm α → Fm α} {f : Fm α} (h : EncOK b v enc f) :
    CoreC (nnf cons enc f true) := nnf_core f (fun g hg hp => (h g hg hp).1) true

theorem mem_of_lookup {k : Fm α} {x : Fm α} : ∀ {l : List (Fm α × Fm α)}, l.lookup k = some x → (k, x) ∈ l
  | [], h => by simp at h
  | (a, b) :: l, h => by
    rw [List.lookup_cons] at h
    split at h
    · rename_i h1; simp at h h1; subst h; subst h1; simp
    · simp [mem_of_lookup h]

theorem cached_ok {b d : Bool} {v : α → Bool} {f : Fm α} {s : FS σ α} {k : (Fm α × Bool) × FS σ α} (hs : COK b v d s.cache)
    (hk : ROK b v d f k) : ROK b v d f (cached d f s k) := by
  unfold cached
  split
  · rename_i g hg
    refine ⟨hs, fun _ => ?_⟩
    unfold lookupCache at hg
    split at hg
    · rename_i h1; simp at h1 hg; subst hg; obtain ⟨rfl, h1⟩ := h1; exact ⟨Rel.refl _ _ _, by simp [isNF, h1]⟩
    · exact hs _ (mem_of_lookup hg)
  · unfold finish
    split
    · rename_i h1
      have := hk.2 h1
      refine ⟨?_, fun _ => this⟩
      intro e he
      rcases List.mem_cons.1 he with rfl | he
      · exact this
      · exact hk.1 e he
    · exact ⟨hk.1, by simp⟩

variable {cons d : Bool} {h : Hdl σ} {enc : Fm α → Fm α} {onNNF : Fm α → FS σ α → (Fm α × Bool) × FS σ α} {b : Bool} {v : α → Bool}

theorem factOps_ok : ∀ (fs : List (Fm α)) (s : FS σ α),
    (∀ f ∈ fs, ∀ s, COK b v d s.cache → ROK b v d f (factBody cons d h enc onNNF f s)) → COK b v d s.cache →
    COK b v d (factOps cons d h enc onNNF fs s).2.cache ∧ ((factOps cons d h enc onNNF fs s).1.2 = true →
      List.Forall₂ (Rel b v) fs (factOps cons d h enc onNNF fs s).1.1 ∧ ∀ g ∈ (factOps cons d h enc onNNF fs s).1.1, isNF d g = true)
  | [], s, _, hs => by simp [factOps, hs]
  | f :: fs, s, hf, hs => by
    have h1 := hf f (by simp) s hs
    have ih := factOps_ok fs (factBody cons d h enc onNNF f s).2 (fun g hg => hf g (by simp [hg])) h1.1
    rw [factOps]
    simp only
    split
    · exact ⟨h1.1, by simp⟩
    · rename_i h2
      have h1' := h1.2 (by simpa using h2)
      refine ⟨ih.1, fun h3 => ?_⟩
      have ih' := ih.2 h3
      refine ⟨.cons h1'.1 ih'.1, ?_⟩
      intro g hg
      rcases List.mem_cons.1 hg with rfl | hg
      · exact h1'.2
      · exact ih'.2 g hg

/-- inner case: distribution over the results for the operands -/
theorem distAll_ok {g : Fm α} {gs : List (Fm α)} {s : FS σ α} (hs : COK b v d s.cache) (f : Fm α)
    (hr : ∀ r : Fm α, ev d v r = (g :: gs).any (ev d v) → Rel b v f r) (hn : ∀ k ∈ g :: gs, isNF d k = true) :
    ROK b v d f (distAll cons d h g gs s) := by
  have := distAll_spec cons d h gs g s
  refine ⟨by rw [this.1]; exact hs, fun h1 => ?_⟩
  exact ⟨hr _ ((this.2 h1).1 v), (this.2 h1).2 hn⟩

theorem factBody_ok (f : Fm α) (he : EncOK b v enc f)
    (ho : CoreC f ∨ ∀ g s, CoreC g → COK b v d s.cache → ROK b v d g (onNNF g s)) :
    ∀ s, COK b v d s.cache → ROK b v d f (factBody cons d h enc onNNF f s) := by
  have neg : ∀ f, EncOK b v enc f → (∀ g s, CoreC g → COK b v d s.cache → ROK b v d g (onNNF g s)) → ∀ s, COK b v d s.cache →
      ROK b v d f (onNNF (nnf cons enc f true) s) := by
    intro f he ho s hs
    have := ho _ s (nnf_coreC (cons := cons) he) hs
    exact ⟨this.1, fun h => ⟨(nnf_rel he).trans (this.2 h).1, (this.2 h).2⟩⟩
  induction f using Fm.ind with
  | hf => intro s hs; rw [factBody]; exact ⟨hs, fun _ => ⟨Rel.refl _ _ _, isNF_fls d⟩⟩
  | ht => intro s hs; rw [factBody]; exact ⟨hs, fun _ => ⟨Rel.refl _ _ _, isNF_tru d⟩⟩
  | hl l => intro s hs; rw [factBody]; exact ⟨hs, fun _ => ⟨Rel.refl _ _ _, isNF_lit d l⟩⟩
  | hn f ih =>
    intro s hs; rw [factBody]
    exact cached_ok hs (neg _ he (ho.resolve_left (by simp [CoreC, core])) s hs)
  | hi f g h1 h2 =>
    intro s hs; rw [factBody]
    exact cached_ok hs (neg _ he (ho.resolve_left (by simp [CoreC, core])) s hs)
  | he f g h1 h2 =>
    intro s hs; rw [factBody]
    exact cached_ok hs (neg _ he (ho.resolve_left (by simp [CoreC, core])) s hs)
  | hc c k xs =>
    intro s hs; rw [factBody]
    refine cached_ok hs ?_
    split
    · rename_i hd
      refine ⟨hs, fun _ => ⟨nnf_rel (cons := cons) he, ?_⟩⟩
      rw [nnf, if_pos rfl, isNF, if_pos hd]
      exact (he _ (by simp) rfl).2.2
    · exact neg _ he (ho.resolve_left (by simp [CoreC, core])) s hs
  | hp c k ts =>
    intro s hs; rw [factBody]
    refine cached_ok hs ?_
    split
    · rename_i hd
      refine ⟨hs, fun _ => ⟨nnf_rel (cons := cons) he, ?_⟩⟩
      rw [nnf, if_pos rfl, isNF, if_pos hd]
      exact (he _ (by simp) rfl).2.2
    · exact neg _ he (ho.resolve_left (by simp [CoreC, core])) s hs
  | ha fs ih =>
    intro s hs; rw [factBody]
    refine cached_ok hs ?_
    have ops := factOps_ok (cons := cons) (d := d) (h := h) (enc := enc) (onNNF := onNNF) fs s (fun f hf => ih f hf
      (fun g hg => he g (by simp only [pbs_and, List.mem_flatMap]; exact ⟨f, hf, hg⟩))
      (ho.imp_left fun hc => by
        simp only [CoreC, reduceCtorEq, false_or, core_and, Bool.and_eq_true, List.all_eq_true] at hc
        exact .inr (.inr (hc.2 f hf)))) hs
    generalize factOps cons d h enc onNNF fs s = r at ops
    simp only
    split
    · exact ⟨ops.1, by simp⟩
    rename_i h1
    have ops2 := ops.2 (by simpa using h1)
    have rel := Rel.all ops2.1
    split
    · rename_i hd
      subst hd
      refine ⟨ops.1, fun _ => ⟨rel.trans (.of_eq (by simp)), ?_⟩⟩
      exact isNF_outerJoin (c := cons) (d := true) ops2.2
    · rename_i hd
      have hd : d = false := by simpa using hd
      split
      · rename_i e
        rw [e] at rel
        exact ⟨ops.1, fun _ => ⟨rel.trans (.of_eq (by simp)), isNF_tru d⟩⟩
      · rename_i g gs e
        rw [e] at rel ops2
        refine distAll_ok ops.1 _ (fun k hk => rel.trans (.of_eq ?_)) ops2.2
        subst hd
        rw [any_ev_false] at hk
        simp only [ev, Fm.eval_and] at *
        generalize (g :: gs).all (Fm.eval v) = t at *
        cases h2 : k.eval v <;> cases t <;> simp [h2] at hk ⊢
  | ho fs ih =>
    intro s hs; rw [factBody]
    refine cached_ok hs ?_
    have ops := factOps_ok (cons := cons) (d := d) (h := h) (enc := enc) (onNNF := onNNF) fs s (fun f hf => ih f hf
      (fun g hg => he g (by simp only [pbs_or, List.mem_flatMap]; exact ⟨f, hf, hg⟩))
      (ho.imp_left fun hc => by
        simp only [CoreC, reduceCtorEq, false_or, core_or, Bool.and_eq_true, List.all_eq_true] at hc
        exact .inr (.inr (hc.2 f hf)))) hs
    generalize factOps cons d h enc onNNF fs s = r at ops
    simp only
    split
    · exact ⟨ops.1, by simp⟩
    rename_i h1
    have ops2 := ops.2 (by simpa using h1)
    have rel := Rel.any ops2.1
    split
    · rename_i hd
      subst hd
      split
      · rename_i e
        rw [e] at rel
        exact ⟨ops.1, fun _ => ⟨rel.trans (.of_eq (by simp)), isNF_fls _⟩⟩
      · rename_i g gs e
        rw [e] at rel ops2
        refine distAll_ok ops.1 _ (fun k hk => rel.trans (.of_eq ?_)) ops2.2
        rw [any_ev_true] at hk
        simp only [ev, Fm.eval_or] at *
        simpa using hk
    · rename_i hd
      have hd : d = false := by simpa using hd
      subst hd
      refine ⟨ops.1, fun _ => ⟨rel.trans (.of_eq (by simp)), ?_⟩⟩
      exact isNF_outerJoin (c := cons) (d := false) ops2.2

theorem factRec_ok (cons d : Bool) (h : Hdl σ) (enc : Fm α → Fm α) (f : Fm α) (he : EncOK b v enc f) (s : FS σ α) (hs : COK b v d s.cache) :
    ROK b v d f (factRec cons d h enc f s) := by
  unfold factRec
  refine factBody_ok f he (.inr fun g s hg hs => ?_) s hs
  refine factBody_ok g (by unfold EncOK; rw [core_pbs g hg]; simp) (.inl hg) s hs

end

end Verif.NF
