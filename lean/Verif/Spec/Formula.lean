/-
Specification layer: propositional / pseudo-Boolean formulas as trees with their truth-table semantics.
Nothing here refers to the model of the Go code.
-/
namespace Verif

/-- A literal over variable names of type `α`. -/
structure Lit (α : Type) where
  var : α
  pos : Bool
deriving DecidableEq, Repr

namespace Lit
variable {α : Type}
def neg (l : Lit α) : Lit α := ⟨l.var, !l.pos⟩
/-- truth value of a literal -/
def eval (v : α → Bool) (l : Lit α) : Bool := if l.pos then v l.var else !(v l.var)
@[simp] theorem neg_neg (l : Lit α) : l.neg.neg = l := by cases l; simp [neg]
@[simp] theorem eval_neg (v : α → Bool) (l : Lit α) : l.neg.eval v = !(l.eval v) := by
  cases l with | mk x p => cases p <;> simp [neg, eval]
@[simp] theorem neg_var (l : Lit α) : l.neg.var = l.var := rfl
theorem neg_ne (l : Lit α) : l.neg ≠ l := by
  cases l with | mk x p => cases p <;> simp [neg]
end Lit

/-- Comparators of linear constraints. -/
inductive Cmp | eq | le | lt | ge | gt
deriving DecidableEq, Repr

/-- meaning of a comparator -/
def Cmp.holds : Cmp → Int → Int → Bool
  | .eq, a, b => decide (a = b)
  | .le, a, b => decide (a ≤ b)
  | .lt, a, b => decide (a < b)
  | .ge, a, b => decide (a ≥ b)
  | .gt, a, b => decide (a > b)

/-- Formula trees. `cc c k xs` is `Σ xs C k`, `pbc c k ts` is `Σ aᵢ·lᵢ C k`. -/
inductive Fm (α : Type) where
  | fls | tru
  | lit (l : Lit α)
  | not (f : Fm α)
  | and (fs : List (Fm α))
  | or (fs : List (Fm α))
  | impl (f g : Fm α)
  | equiv (f g : Fm α)
  | cc (c : Cmp) (rhs : Int) (vars : List α)
  | pbc (c : Cmp) (rhs : Int) (terms : List (Int × Lit α))
deriving Repr

/-- value of a linear sum under an assignment -/
def linSum {α : Type} (v : α → Bool) : List (Int × Lit α) → Int
  | [] => 0
  | (a, l) :: ts => (if l.eval v then a else 0) + linSum v ts

/-- number of true variables in a list (with multiplicity) -/
def cntTrue {α : Type} (v : α → Bool) : List α → Int
  | [] => 0
  | x :: xs => (if v x then 1 else 0) + cntTrue v xs

namespace Fm
variable {α : Type}

mutual
/-- truth value of a formula under an assignment -/
def eval (v : α → Bool) : Fm α → Bool
  | .fls => false
  | .tru => true
  | .lit l => l.eval v
  | .not f => !(eval v f)
  | .and fs => evalAll v fs
  | .or fs => evalAny v fs
  | .impl f g => !(eval v f) || eval v g
  | .equiv f g => eval v f == eval v g
  | .cc c k xs => c.holds (cntTrue v xs) k
  | .pbc c k ts => c.holds (linSum v ts) k
def evalAll (v : α → Bool) : List (Fm α) → Bool
  | [] => true
  | f :: fs => eval v f && evalAll v fs
def evalAny (v : α → Bool) : List (Fm α) → Bool
  | [] => false
  | f :: fs => eval v f || evalAny v fs
end

theorem evalAll_eq (v : α → Bool) (fs : List (Fm α)) : evalAll v fs = fs.all (eval v) := by
  induction fs with
  | nil => simp [evalAll]
  | cons f fs ih => simp [evalAll, ih]
theorem evalAny_eq (v : α → Bool) (fs : List (Fm α)) : evalAny v fs = fs.any (eval v) := by
  induction fs with
  | nil => simp [evalAny]
  | cons f fs ih => simp [evalAny, ih]

@[simp] theorem eval_fls (v : α → Bool) : eval v .fls = false := by simp [eval]
@[simp] theorem eval_tru (v : α → Bool) : eval v .tru = true := by simp [eval]
@[simp] theorem eval_lit (v : α → Bool) (l : Lit α) : eval v (.lit l) = l.eval v := by simp [eval]
@[simp] theorem eval_not (v : α → Bool) (f : Fm α) : eval v (.not f) = !(eval v f) := by simp [eval]
@[simp] theorem eval_and (v : α → Bool) (fs) : eval v (.and fs : Fm α) = fs.all (eval v) := by
  simp [eval, evalAll_eq]
@[simp] theorem eval_or (v : α → Bool) (fs) : eval v (.or fs : Fm α) = fs.any (eval v) := by
  simp [eval, evalAny_eq]
@[simp] theorem eval_impl (v : α → Bool) (f g : Fm α) :
    eval v (.impl f g) = (!(eval v f) || eval v g) := by simp [eval]
@[simp] theorem eval_equiv (v : α → Bool) (f g : Fm α) :
    eval v (.equiv f g) = (eval v f == eval v g) := by simp [eval]
@[simp] theorem eval_cc (v : α → Bool) (c k) (xs : List α) :
    eval v (.cc c k xs) = c.holds (cntTrue v xs) k := by simp [eval]
@[simp] theorem eval_pbc (v : α → Bool) (c k) (ts : List (Int × Lit α)) :
    eval v (.pbc c k ts) = c.holds (linSum v ts) k := by simp [eval]

/-- Induction over formula trees with the hypothesis for all members of operand lists. -/
theorem ind {P : Fm α → Prop} (hf : P .fls) (ht : P .tru) (hl : ∀ l, P (.lit l))
    (hn : ∀ f, P f → P (.not f))
    (ha : ∀ fs, (∀ f ∈ fs, P f) → P (.and fs)) (ho : ∀ fs, (∀ f ∈ fs, P f) → P (.or fs))
    (hi : ∀ f g, P f → P g → P (.impl f g)) (he : ∀ f g, P f → P g → P (.equiv f g))
    (hc : ∀ c k xs, P (.cc c k xs)) (hp : ∀ c k ts, P (.pbc c k ts)) (f : Fm α) : P f :=
  Fm.rec (motive_1 := P) (motive_2 := fun fs => ∀ f ∈ fs, P f)
    hf ht hl hn ha ho hi he hc hp
    (by simp) (fun f fs h1 h2 g hg => by
      rcases List.mem_cons.1 hg with h | h
      · exact h ▸ h1
      · exact h2 g h) f

mutual
/-- The variables occurring in a formula (with repetitions, left to right). -/
def vars : Fm α → List α
  | .fls => []
  | .tru => []
  | .lit l => [l.var]
  | .not f => vars f
  | .and fs => varsL fs
  | .or fs => varsL fs
  | .impl f g => vars f ++ vars g
  | .equiv f g => vars f ++ vars g
  | .cc _ _ xs => xs
  | .pbc _ _ ts => ts.map (·.2.var)
def varsL : List (Fm α) → List α
  | [] => []
  | f :: fs => vars f ++ varsL fs
end

theorem varsL_eq (fs : List (Fm α)) : varsL fs = fs.flatMap vars := by
  induction fs with
  | nil => simp [varsL]
  | cons f fs ih => simp [varsL, ih]
@[simp] theorem vars_fls : vars (.fls : Fm α) = [] := by simp [vars]
@[simp] theorem vars_tru : vars (.tru : Fm α) = [] := by simp [vars]
@[simp] theorem vars_lit (l : Lit α) : vars (.lit l) = [l.var] := by simp [vars]
@[simp] theorem vars_not (f : Fm α) : vars (.not f) = vars f := by simp [vars]
@[simp] theorem vars_and (fs : List (Fm α)) : vars (.and fs) = fs.flatMap vars := by simp [vars, varsL_eq]
@[simp] theorem vars_or (fs : List (Fm α)) : vars (.or fs) = fs.flatMap vars := by simp [vars, varsL_eq]
@[simp] theorem vars_impl (f g : Fm α) : vars (.impl f g) = vars f ++ vars g := by simp [vars]
@[simp] theorem vars_equiv (f g : Fm α) : vars (.equiv f g) = vars f ++ vars g := by simp [vars]
@[simp] theorem vars_cc (c k) (xs : List α) : vars (.cc c k xs) = xs := by simp [vars]
@[simp] theorem vars_pbc (c k) (ts : List (Int × Lit α)) : vars (.pbc c k ts) = ts.map (·.2.var) := by
  simp [vars]

theorem cntTrue_congr {v w : α → Bool} : ∀ {xs : List α}, (∀ x ∈ xs, v x = w x) → cntTrue v xs = cntTrue w xs
  | [], _ => rfl
  | x :: xs, h => by
    simp only [cntTrue, h x (by simp)]
    rw [cntTrue_congr (fun y hy => h y (by simp [hy]))]
theorem _root_.Verif.Lit.eval_congr {v w : α → Bool} {l : Lit α} (h : v l.var = w l.var) : l.eval v = l.eval w := by
  simp [Lit.eval, h]
theorem linSum_congr {v w : α → Bool} :
    ∀ {ts : List (Int × Lit α)}, (∀ t ∈ ts, v t.2.var = w t.2.var) → linSum v ts = linSum w ts
  | [], _ => rfl
  | (a, l) :: ts, h => by
    simp only [linSum, Lit.eval_congr (h (a, l) (by simp))]
    rw [linSum_congr (fun y hy => h y (by simp [hy]))]

/-- The truth value depends only on the variables of the formula. -/
theorem eval_congr {v w : α → Bool} (f : Fm α) : (∀ x ∈ f.vars, v x = w x) → f.eval v = f.eval w := by
  induction f using Fm.ind with
  | hf => simp
  | ht => simp
  | hl l => intro h; simp only [eval_lit]; exact Lit.eval_congr (h _ (by simp))
  | hn f ih => intro h; simp only [eval_not]; rw [ih (by simpa using h)]
  | ha fs ih =>
    intro h; simp only [eval_and]
    rw [Bool.eq_iff_iff]; simp only [List.all_eq_true]
    refine forall_congr' fun f => forall_congr' fun hf => ?_
    rw [ih f hf (fun x hx => h x (by simp only [vars_and, List.mem_flatMap]; exact ⟨f, hf, hx⟩))]
  | ho fs ih =>
    intro h; simp only [eval_or]
    rw [Bool.eq_iff_iff]; simp only [List.any_eq_true]
    refine exists_congr fun f => ?_
    constructor
    · rintro ⟨hf, h2⟩
      exact ⟨hf, by rw [← ih f hf (fun x hx => h x (by simp only [vars_or, List.mem_flatMap]; exact ⟨f, hf, hx⟩))]; exact h2⟩
    · rintro ⟨hf, h2⟩
      exact ⟨hf, by rw [ih f hf (fun x hx => h x (by simp only [vars_or, List.mem_flatMap]; exact ⟨f, hf, hx⟩))]; exact h2⟩
  | hi f g h1 h2 =>
    intro h; simp only [eval_impl]
    rw [h1 (fun x hx => h x (by simp [hx])), h2 (fun x hx => h x (by simp [hx]))]
  | he f g h1 h2 =>
    intro h; simp only [eval_equiv]
    rw [h1 (fun x hx => h x (by simp [hx])), h2 (fun x hx => h x (by simp [hx]))]
  | hc c k xs => intro h; simp only [eval_cc]; rw [cntTrue_congr (by simpa using h)]
  | hp c k ts =>
    intro h; simp only [eval_pbc]
    rw [linSum_congr (fun t ht => h _ (by simp only [vars_pbc, List.mem_map]; exact ⟨t, ht, rfl⟩))]

mutual
/-- no cardinality or pseudo-Boolean constraint inside -/
def pbFree : Fm α → Bool
  | .fls | .tru | .lit _ => true
  | .not f => pbFree f
  | .and fs | .or fs => pbFreeL fs
  | .impl f g | .equiv f g => pbFree f && pbFree g
  | .cc .. | .pbc .. => false
def pbFreeL : List (Fm α) → Bool
  | [] => true
  | f :: fs => pbFree f && pbFreeL fs
end
theorem pbFreeL_eq (fs : List (Fm α)) : pbFreeL fs = fs.all pbFree := by
  induction fs with
  | nil => simp [pbFreeL]
  | cons f fs ih => simp [pbFreeL, ih]
@[simp] theorem pbFree_fls : pbFree (.fls : Fm α) = true := by simp [pbFree]
@[simp] theorem pbFree_tru : pbFree (.tru : Fm α) = true := by simp [pbFree]
@[simp] theorem pbFree_lit (l : Lit α) : pbFree (.lit l) = true := by simp [pbFree]
@[simp] theorem pbFree_not (f : Fm α) : pbFree (.not f) = pbFree f := by simp [pbFree]
@[simp] theorem pbFree_and (fs : List (Fm α)) : pbFree (.and fs) = fs.all pbFree := by simp [pbFree, pbFreeL_eq]
@[simp] theorem pbFree_or (fs : List (Fm α)) : pbFree (.or fs) = fs.all pbFree := by simp [pbFree, pbFreeL_eq]
@[simp] theorem pbFree_impl (f g : Fm α) : pbFree (.impl f g) = (pbFree f && pbFree g) := by simp [pbFree]
@[simp] theorem pbFree_equiv (f g : Fm α) : pbFree (.equiv f g) = (pbFree f && pbFree g) := by simp [pbFree]
@[simp] theorem pbFree_cc (c k) (xs : List α) : pbFree (.cc c k xs) = false := by simp [pbFree]
@[simp] theorem pbFree_pbc (c k) (ts : List (Int × Lit α)) : pbFree (.pbc c k ts) = false := by simp [pbFree]

mutual
/-- structural equality test -/
def beqF [DecidableEq α] : Fm α → Fm α → Bool
  | .fls, .fls => true
  | .tru, .tru => true
  | .lit l, .lit m => decide (l = m)
  | .not f, .not g => beqF f g
  | .and fs, .and gs => beqL fs gs
  | .or fs, .or gs => beqL fs gs
  | .impl f g, .impl f' g' => beqF f f' && beqF g g'
  | .equiv f g, .equiv f' g' => beqF f f' && beqF g g'
  | .cc c k xs, .cc c' k' xs' => decide (c = c' ∧ k = k' ∧ xs = xs')
  | .pbc c k xs, .pbc c' k' xs' => decide (c = c' ∧ k = k' ∧ xs = xs')
  | _, _ => false
def beqL [DecidableEq α] : List (Fm α) → List (Fm α) → Bool
  | [], [] => true
  | f :: fs, g :: gs => beqF f g && beqL fs gs
  | _, _ => false
end

theorem beqF_iff [DecidableEq α] (f : Fm α) : ∀ g, beqF f g = true ↔ f = g :=
  Fm.rec (motive_1 := fun f => ∀ g, beqF f g = true ↔ f = g)
    (motive_2 := fun fs => ∀ gs, beqL fs gs = true ↔ fs = gs)
    (by intro g; cases g <;> simp [beqF])
    (by intro g; cases g <;> simp [beqF])
    (by intro l g; cases g <;> simp [beqF])
    (by intro f ih g; cases g <;> simp [beqF, ih])
    (by intro f ih g; cases g <;> simp [beqF, ih])
    (by intro f ih g; cases g <;> simp [beqF, ih])
    (by intro f f' ih ih' g; cases g <;> simp [beqF, ih, ih'])
    (by intro f f' ih ih' g; cases g <;> simp [beqF, ih, ih'])
    (by intro c k xs g; cases g <;> simp [beqF])
    (by intro c k xs g; cases g <;> simp [beqF])
    (by intro g; cases g <;> simp [beqL])
    (by intro f fs ih ih' g; cases g <;> simp [beqL, ih, ih'])
    f

instance [DecidableEq α] : DecidableEq (Fm α) := fun f g =>
  if h : beqF f g = true then isTrue ((beqF_iff f g).1 h) else isFalse (fun e => h ((beqF_iff f g).2 e))

end Fm

/-- logical equivalence of formulas -/
def Fm.Equivalent {α : Type} (f g : Fm α) : Prop := ∀ v : α → Bool, f.eval v = g.eval v

/-- satisfiability -/
def Fm.Sat {α : Type} (f : Fm α) : Prop := ∃ v : α → Bool, f.eval v = true

end Verif
