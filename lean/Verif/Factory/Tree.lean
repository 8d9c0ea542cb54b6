import Verif.Spec.Formula
import Verif.Util
/-
The factory constructors seen on formula trees.  `Verif.Factory.Refine` proves that the handle-level constructors of the
factory model compute exactly these functions; the models of the transformation packages use them.
-/
namespace Verif.Tree
open Verif
variable {α : Type} [DecidableEq α]

/-- formula/factory.go:232-257 `Not`, on trees -/
def tNot : Fm α → Fm α
  | .fls => .tru
  | .tru => .fls
  | .lit l => .lit l.neg
  | .not f => f
  | f => .not f

/-- formula/factory.go:274-295 `Implication`, on trees (`left.ID() == negId(right.ID())` means: `left` is the negation of `right`) -/
def tImpl (cons : Bool) (l r : Fm α) : Fm α :=
  if l = .fls ∨ r = .tru then .tru
  else if l = .tru then r
  else if r = .fls ∨ l = tNot r then tNot l
  else if !cons ∧ l = r then .tru
  else .impl l r

/-- formula/factory.go:298-323 `Equivalence`, on trees -/
def tEquiv (cons : Bool) (l r : Fm α) : Fm α :=
  if l = .tru then r
  else if r = .tru then l
  else if l = .fls then tNot r
  else if r = .fls then tNot l
  else if !cons ∧ l = r then .tru
  else if !cons ∧ l = tNot r then .fls
  else .equiv l r

/-- formula/factory.go:555-570 `addFormulaAnd`, on trees -/
def tAddAnd (cons : Bool) (acc : List (Fm α)) (f : Fm α) : Option (List (Fm α)) :=
  if f = .tru then some acc
  else if f = .fls ∨ (cons = false ∧ tNot f ∈ acc) then none
  else if f ∈ acc then some acc else some (acc ++ [f])
/-- formula/factory.go:609-624 `addFormulaOr`, on trees -/
def tAddOr (cons : Bool) (acc : List (Fm α)) (f : Fm α) : Option (List (Fm α)) :=
  if f = .fls then some acc
  else if f = .tru ∨ (cons = false ∧ tNot f ∈ acc) then none
  else if f ∈ acc then some acc else some (acc ++ [f])

/-- loop body of `condenseOperandsAnd`, formula/factory.go:531-551, on trees -/
def tStepAnd (cons : Bool) (acc : List (Fm α)) (f : Fm α) : Option (List (Fm α)) :=
  match f with
  | .and gs => foldOpt (tAddAnd cons) acc gs
  | f => tAddAnd cons acc f
/-- loop body of `condenseOperandsOr`, formula/factory.go:585-605, on trees -/
def tStepOr (cons : Bool) (acc : List (Fm α)) (f : Fm α) : Option (List (Fm α)) :=
  match f with
  | .or gs => foldOpt (tAddOr cons) acc gs
  | f => tAddOr cons acc f

/-- formula/factory.go:343-368 `And`, on trees -/
def tAnd (cons : Bool) (fs : List (Fm α)) : Fm α :=
  match foldOpt (tStepAnd cons) [] fs with
  | none => .fls
  | some [] => .tru
  | some [f] => f
  | some fs => .and fs
/-- formula/factory.go:399-424 `Or`, on trees -/
def tOr (cons : Bool) (fs : List (Fm α)) : Fm α :=
  match foldOpt (tStepOr cons) [] fs with
  | none => .tru
  | some [] => .fls
  | some [f] => f
  | some fs => .or fs

/-- formula/factory.go:374-393 `Minterm`, on trees -/
def tMinterm (ls : List (Lit α)) : Fm α :=
  match ls with
  | [] => .tru
  | [l] => .lit l
  | ls => .and (ls.map .lit)
/-- formula/factory.go:430-449 `Clause`, on trees -/
def tClause (ls : List (Lit α)) : Fm α :=
  match ls with
  | [] => .fls
  | [l] => .lit l
  | ls => .or (ls.map .lit)

def tConst (b : Bool) : Fm α := if b then .tru else .fls

/-- formula/factory.go:773-788 -/
def trivialPB : Cmp → Int → Bool
  | .eq, rhs => decide (rhs = 0)
  | .le, rhs => decide (rhs ≥ 0)
  | .lt, rhs => decide (rhs > 0)
  | .ge, rhs => decide (rhs ≤ 0)
  | .gt, rhs => decide (rhs < 0)

/-- formula/factory.go:700-722 `constructCC`, on trees -/
def tCC (c : Cmp) (k : Int) (xs : List α) : Fm α :=
  if xs.isEmpty then tConst (trivialPB c k) else .cc c k xs

/-- formula/factory.go:680-698 `isCC`, on trees -/
def tIsCC (c : Cmp) (k : Int) (ts : List (Int × Lit α)) : Bool :=
  ts.all (fun t => t.2.pos) && ts.all (fun t => decide (t.1 = 1)) &&
  (match c with
   | .le => decide (k ≥ 0)
   | .lt => decide (k ≥ 1)
   | .ge => decide (k ≥ 0)
   | .gt => decide (k ≥ 0)
   | .eq => decide (k ≥ 0))

/-- formula/factory.go:473-482 `PBC`, on trees -/
def tPBC (c : Cmp) (k : Int) (ts : List (Int × Lit α)) : Fm α :=
  if ts.isEmpty then tConst (trivialPB c k)
  else if tIsCC c k ts then .cc c k (ts.map (·.2.var))
  else .pbc c k ts

/-! ### Semantics of the tree constructors -/

omit [DecidableEq α] in
@[simp] theorem eval_tNot (v : α → Bool) (f : Fm α) : (tNot f).eval v = !(f.eval v) := by
  cases f <;> simp [tNot]

@[simp] theorem eval_tImpl (c : Bool) (v : α → Bool) (l r : Fm α) :
    (tImpl c l r).eval v = (!(l.eval v) || r.eval v) := by
  unfold tImpl
  split
  · rename_i h; rcases h with rfl | rfl <;> simp
  split
  · rename_i h; subst h; simp
  split
  · rename_i h; rcases h with rfl | rfl
    · simp
    · simp
  split
  · rename_i h; rw [h.2]; simp
  · simp
@[simp] theorem eval_tEquiv (c : Bool) (v : α → Bool) (l r : Fm α) :
    (tEquiv c l r).eval v = (l.eval v == r.eval v) := by
  unfold tEquiv
  split
  · rename_i h; subst h; simp
  split
  · rename_i h; subst h; simp
  split
  · rename_i h; subst h; simp
  split
  · rename_i h; subst h; simp
  split
  · rename_i h; rw [h.2]; simp
  split
  · rename_i h; rw [h.2]; simp
  · simp

def AllRes {A : Type} (e : A → Bool) (r : Option (List A)) (b : Bool) : Prop :=
  match r with
  | some a => a.all e = b
  | none => b = false
def AnyRes {A : Type} (e : A → Bool) (r : Option (List A)) (b : Bool) : Prop :=
  match r with
  | some a => a.any e = b
  | none => b = true

theorem tAddAnd_eval (c : Bool) (v : α → Bool) (acc : List (Fm α)) (f : Fm α) :
    AllRes (Fm.eval v) (tAddAnd c acc f) (acc.all (Fm.eval v) && f.eval v) := by
  unfold tAddAnd AllRes
  by_cases h1 : f = .tru
  · simp [h1]
  rw [if_neg h1]
  by_cases h2 : f = .fls ∨ (c = false ∧ tNot f ∈ acc)
  · rw [if_pos h2]
    rcases h2 with rfl | ⟨_, h2⟩
    · simp
    · cases h3 : f.eval v with
      | false => simp
      | true => simp only [Bool.and_true, List.all_eq_false]; exact ⟨_, h2, by simp [h3]⟩
  rw [if_neg h2]
  by_cases h3 : f ∈ acc
  · rw [if_pos h3]
    cases h4 : f.eval v with
    | true => simp
    | false => simp only [Bool.and_false, List.all_eq_false]; exact ⟨_, h3, by simp [h4]⟩
  · rw [if_neg h3]; simp
theorem tAddOr_eval (c : Bool) (v : α → Bool) (acc : List (Fm α)) (f : Fm α) :
    AnyRes (Fm.eval v) (tAddOr c acc f) (acc.any (Fm.eval v) || f.eval v) := by
  unfold tAddOr AnyRes
  by_cases h1 : f = .fls
  · simp [h1]
  rw [if_neg h1]
  by_cases h2 : f = .tru ∨ (c = false ∧ tNot f ∈ acc)
  · rw [if_pos h2]
    rcases h2 with rfl | ⟨_, h2⟩
    · simp
    · cases h3 : f.eval v with
      | true => simp
      | false => simp only [Bool.or_false, List.any_eq_true]; exact ⟨_, h2, by simp [h3]⟩
  rw [if_neg h2]
  by_cases h3 : f ∈ acc
  · rw [if_pos h3]
    cases h4 : f.eval v with
    | false => simp
    | true => simp only [Bool.or_true, List.any_eq_true]; exact ⟨_, h3, by simp [h4]⟩
  · rw [if_neg h3]; simp

/-- generic semantics of an early-exit fold -/
theorem foldOpt_and {A : Type} (step : List A → A → Option (List A)) (e : A → Bool)
    (hs : ∀ acc f, AllRes e (step acc f) (acc.all e && e f)) :
    ∀ (fs acc : List A), AllRes e (foldOpt step acc fs) (acc.all e && fs.all e)
  | [], acc => by simp [foldOpt, AllRes]
  | f :: fs, acc => by
    have h := hs acc f
    simp only [foldOpt]
    cases e1 : step acc f with
    | none => rw [e1] at h; simp only [AllRes, AnyRes] at h ⊢; rw [List.all_cons, ← Bool.and_assoc, h]; simp
    | some a =>
      rw [e1] at h; simp only [AllRes, AnyRes] at h ⊢
      have := foldOpt_and step e hs fs a
      rw [List.all_cons, ← Bool.and_assoc, ← h]; exact this
theorem foldOpt_or {A : Type} (step : List A → A → Option (List A)) (e : A → Bool)
    (hs : ∀ acc f, AnyRes e (step acc f) (acc.any e || e f)) :
    ∀ (fs acc : List A), AnyRes e (foldOpt step acc fs) (acc.any e || fs.any e)
  | [], acc => by simp [foldOpt, AnyRes]
  | f :: fs, acc => by
    have h := hs acc f
    simp only [foldOpt]
    cases e1 : step acc f with
    | none => rw [e1] at h; simp only [AllRes, AnyRes] at h ⊢; rw [List.any_cons, ← Bool.or_assoc, h]; simp
    | some a =>
      rw [e1] at h; simp only [AllRes, AnyRes] at h ⊢
      have := foldOpt_or step e hs fs a
      rw [List.any_cons, ← Bool.or_assoc, ← h]; exact this

theorem tStepAnd_eval (c : Bool) (v : α → Bool) (acc : List (Fm α)) (f : Fm α) :
    AllRes (Fm.eval v) (tStepAnd c acc f) (acc.all (Fm.eval v) && f.eval v) := by
  cases f with
  | and gs => rw [Fm.eval_and]; exact foldOpt_and (tAddAnd c) (Fm.eval v) (tAddAnd_eval c v) gs acc
  | _ => simpa only [tStepAnd] using tAddAnd_eval c v acc _
theorem tStepOr_eval (c : Bool) (v : α → Bool) (acc : List (Fm α)) (f : Fm α) :
    AnyRes (Fm.eval v) (tStepOr c acc f) (acc.any (Fm.eval v) || f.eval v) := by
  cases f with
  | or gs => rw [Fm.eval_or]; exact foldOpt_or (tAddOr c) (Fm.eval v) (tAddOr_eval c v) gs acc
  | _ => simpa only [tStepOr] using tAddOr_eval c v acc _

@[simp] theorem eval_tAnd (c : Bool) (v : α → Bool) (fs : List (Fm α)) :
    (tAnd c fs).eval v = fs.all (Fm.eval v) := by
  have h := foldOpt_and (tStepAnd c) (Fm.eval v) (tStepAnd_eval c v) fs []
  simp only [List.all_nil, Bool.true_and] at h
  unfold tAnd
  split <;> rename_i h1 <;> rw [h1] at h <;> simp only [AllRes] at h
  · rw [h]; simp
  · rw [← h]; simp
  · rw [← h]; simp
  · rw [← h]; simp
@[simp] theorem eval_tOr (c : Bool) (v : α → Bool) (fs : List (Fm α)) :
    (tOr c fs).eval v = fs.any (Fm.eval v) := by
  have h := foldOpt_or (tStepOr c) (Fm.eval v) (tStepOr_eval c v) fs []
  simp only [List.any_nil, Bool.false_or] at h
  unfold tOr
  split <;> rename_i h1 <;> rw [h1] at h <;> simp only [AnyRes] at h
  · rw [h]; simp
  · rw [← h]; simp
  · rw [← h]; simp
  · rw [← h]; simp

omit [DecidableEq α] in
@[simp] theorem eval_tMinterm (v : α → Bool) (ls : List (Lit α)) : (tMinterm ls).eval v = ls.all (Lit.eval v) := by
  unfold tMinterm
  split <;> simp [List.all_map]
  rfl
omit [DecidableEq α] in
@[simp] theorem eval_tClause (v : α → Bool) (ls : List (Lit α)) : (tClause ls).eval v = ls.any (Lit.eval v) := by
  unfold tClause
  split <;> simp [List.any_map]
  rfl
omit [DecidableEq α] in
@[simp] theorem eval_tConst (v : α → Bool) (b : Bool) : (tConst b : Fm α).eval v = b := by
  cases b <;> simp [tConst]
theorem trivialPB_eq (c : Cmp) (k : Int) : trivialPB c k = c.holds 0 k := by
  cases c <;> simp [trivialPB, Cmp.holds, eq_comm]
omit [DecidableEq α] in
@[simp] theorem eval_tCC (v : α → Bool) (c : Cmp) (k : Int) (xs : List α) :
    (tCC c k xs).eval v = c.holds (cntTrue v xs) k := by
  unfold tCC
  cases xs <;> simp [trivialPB_eq, cntTrue]
omit [DecidableEq α] in
theorem linSum_cnt (v : α → Bool) : ∀ {ts : List (Int × Lit α)}, (∀ t ∈ ts, t.2.pos = true) → (∀ t ∈ ts, t.1 = 1) →
    linSum v ts = cntTrue v (ts.map (·.2.var))
  | [], _, _ => rfl
  | (a, l) :: ts, h1, h2 => by
    have e1 : a = 1 := h2 (a, l) (by simp)
    have e2 : l.pos = true := h1 (a, l) (by simp)
    subst e1
    simp only [linSum, List.map_cons, cntTrue, Lit.eval, e2, if_true]
    rw [linSum_cnt v (fun t ht => h1 t (by simp [ht])) (fun t ht => h2 t (by simp [ht]))]
omit [DecidableEq α] in
@[simp] theorem eval_tPBC (v : α → Bool) (c : Cmp) (k : Int) (ts : List (Int × Lit α)) :
    (tPBC c k ts).eval v = c.holds (linSum v ts) k := by
  unfold tPBC
  split
  · rename_i h; cases ts <;> simp_all [trivialPB_eq, linSum]
  split
  · rename_i h
    unfold tIsCC at h
    simp only [Bool.and_eq_true, List.all_eq_true, decide_eq_true_eq] at h
    rw [Fm.eval_cc, linSum_cnt v h.1.1 h.1.2]
  · simp

/-! ### Variables of the tree constructors -/

omit [DecidableEq α] in
@[simp] theorem vars_tNot (f : Fm α) : (tNot f).vars = f.vars := by cases f <;> simp [tNot]

omit [DecidableEq α] in
theorem tAdd_sub_aux {step : List (Fm α) → Fm α → Option (List (Fm α))} {P : Fm α → Prop} {fs acc a : List (Fm α)}
    (hs : ∀ acc f a, step acc f = some a → (∀ g ∈ acc, P g) → P f → ∀ g ∈ a, P g)
    (h : foldOpt step acc fs = some a) (h1 : ∀ g ∈ acc, P g) (h2 : ∀ g ∈ fs, P g) : ∀ g ∈ a, P g := by
  refine foldOpt_inv (P := fun a => ∀ g ∈ a, P g) ?_ h1 h
  intro a b a' hb ha e
  exact hs a b a' e ha (h2 b hb)

theorem tAddAnd_mem {c : Bool} {acc a : List (Fm α)} {f : Fm α} (h : tAddAnd c acc f = some a) :
    ∀ g ∈ a, g ∈ acc ∨ g = f := by
  unfold tAddAnd at h
  split at h
  · simp at h; subst h; intro g hg; exact .inl hg
  split at h
  · simp at h
  split at h
  · simp at h; subst h; intro g hg; exact .inl hg
  · simp at h; subst h; intro g hg; simpa using hg
theorem tAddOr_mem {c : Bool} {acc a : List (Fm α)} {f : Fm α} (h : tAddOr c acc f = some a) :
    ∀ g ∈ a, g ∈ acc ∨ g = f := by
  unfold tAddOr at h
  split at h
  · simp at h; subst h; intro g hg; exact .inl hg
  split at h
  · simp at h
  split at h
  · simp at h; subst h; intro g hg; exact .inl hg
  · simp at h; subst h; intro g hg; simpa using hg

/-- Everything in the condensed operand list is an operand or an operand of a directly nested conjunction. -/
theorem tStepAnd_mem {c : Bool} {acc a : List (Fm α)} {f : Fm α} (h : tStepAnd c acc f = some a) :
    ∀ g ∈ a, g ∈ acc ∨ g = f ∨ ∃ gs, f = .and gs ∧ g ∈ gs := by
  unfold tStepAnd at h
  split at h
  · rename_i gs
    refine tAdd_sub_aux (P := fun g => g ∈ acc ∨ g = .and gs ∨ ∃ gs', Fm.and gs = .and gs' ∧ g ∈ gs') ?_ h
      (fun g hg => .inl hg) (fun g hg => .inr (.inr ⟨gs, rfl, hg⟩))
    intro acc f a e h1 h2 g hg
    rcases tAddAnd_mem e g hg with h | rfl
    · exact h1 g h
    · exact h2
  · intro g hg
    rcases tAddAnd_mem h g hg with h | rfl
    · exact .inl h
    · exact .inr (.inl rfl)
theorem tStepOr_mem {c : Bool} {acc a : List (Fm α)} {f : Fm α} (h : tStepOr c acc f = some a) :
    ∀ g ∈ a, g ∈ acc ∨ g = f ∨ ∃ gs, f = .or gs ∧ g ∈ gs := by
  unfold tStepOr at h
  split at h
  · rename_i gs
    refine tAdd_sub_aux (P := fun g => g ∈ acc ∨ g = .or gs ∨ ∃ gs', Fm.or gs = .or gs' ∧ g ∈ gs') ?_ h
      (fun g hg => .inl hg) (fun g hg => .inr (.inr ⟨gs, rfl, hg⟩))
    intro acc f a e h1 h2 g hg
    rcases tAddOr_mem e g hg with h | rfl
    · exact h1 g h
    · exact h2
  · intro g hg
    rcases tAddOr_mem h g hg with h | rfl
    · exact .inl h
    · exact .inr (.inl rfl)

theorem tAnd_condensed_mem {c : Bool} {fs a : List (Fm α)} (h : foldOpt (tStepAnd c) [] fs = some a) :
    ∀ g ∈ a, g ∈ fs ∨ ∃ gs, .and gs ∈ fs ∧ g ∈ gs := by
  refine foldOpt_inv (P := fun a => ∀ g ∈ a, (g ∈ fs ∨ ∃ gs, .and gs ∈ fs ∧ g ∈ gs)) ?_ (by simp) h
  intro a f a' hf ha e g hg
  rcases tStepAnd_mem e g hg with h | rfl | ⟨gs, rfl, h⟩
  · exact ha g h
  · exact .inl hf
  · exact .inr ⟨gs, hf, h⟩
theorem tOr_condensed_mem {c : Bool} {fs a : List (Fm α)} (h : foldOpt (tStepOr c) [] fs = some a) :
    ∀ g ∈ a, g ∈ fs ∨ ∃ gs, .or gs ∈ fs ∧ g ∈ gs := by
  refine foldOpt_inv (P := fun a => ∀ g ∈ a, (g ∈ fs ∨ ∃ gs, .or gs ∈ fs ∧ g ∈ gs)) ?_ (by simp) h
  intro a f a' hf ha e g hg
  rcases tStepOr_mem e g hg with h | rfl | ⟨gs, rfl, h⟩
  · exact ha g h
  · exact .inl hf
  · exact .inr ⟨gs, hf, h⟩

theorem vars_tAnd (c : Bool) (fs : List (Fm α)) : ∀ x ∈ (tAnd c fs).vars, ∃ f ∈ fs, x ∈ f.vars := by
  unfold tAnd
  have key : ∀ a, foldOpt (tStepAnd c) [] fs = some a → ∀ g ∈ a, ∀ x ∈ g.vars, ∃ f ∈ fs, x ∈ f.vars := by
    intro a h g hg x hx
    rcases tAnd_condensed_mem h g hg with h | ⟨gs, h, h'⟩
    · exact ⟨g, h, hx⟩
    · exact ⟨_, h, by simp only [Fm.vars_and, List.mem_flatMap]; exact ⟨g, h', hx⟩⟩
  split
  · simp
  · simp
  · rename_i f h; exact key _ h f (by simp)
  · rename_i a _ _ h
    intro x hx
    simp only [Fm.vars_and, List.mem_flatMap] at hx
    obtain ⟨g, hg, hx⟩ := hx
    exact key _ h g hg x hx
theorem vars_tOr (c : Bool) (fs : List (Fm α)) : ∀ x ∈ (tOr c fs).vars, ∃ f ∈ fs, x ∈ f.vars := by
  unfold tOr
  have key : ∀ a, foldOpt (tStepOr c) [] fs = some a → ∀ g ∈ a, ∀ x ∈ g.vars, ∃ f ∈ fs, x ∈ f.vars := by
    intro a h g hg x hx
    rcases tOr_condensed_mem h g hg with h | ⟨gs, h, h'⟩
    · exact ⟨g, h, hx⟩
    · exact ⟨_, h, by simp only [Fm.vars_or, List.mem_flatMap]; exact ⟨g, h', hx⟩⟩
  split
  · simp
  · simp
  · rename_i f h; exact key _ h f (by simp)
  · rename_i a _ _ h
    intro x hx
    simp only [Fm.vars_or, List.mem_flatMap] at hx
    obtain ⟨g, hg, hx⟩ := hx
    exact key _ h g hg x hx
theorem vars_tImpl (c : Bool) (f g : Fm α) : ∀ x ∈ (tImpl c f g).vars, x ∈ f.vars ∨ x ∈ g.vars := by
  unfold tImpl
  repeat' split
  all_goals simp_all
theorem vars_tEquiv (c : Bool) (f g : Fm α) : ∀ x ∈ (tEquiv c f g).vars, x ∈ f.vars ∨ x ∈ g.vars := by
  unfold tEquiv
  repeat' split
  all_goals simp_all

end Verif.Tree
