import Verif.Spec.Formula
/-! Normal forms, as syntactic predicates on formula trees. -/
namespace Verif.Spec
variable {α : Type}

/-- literal -/
def isLit : Fm α → Bool
  | .lit _ => true
  | _ => false
/-- a literal or a disjunction of literals -/
def isClause : Fm α → Bool
  | .lit _ => true
  | .or fs => fs.all isLit
  | _ => false
/-- a literal or a conjunction of literals -/
def isMinterm : Fm α → Bool
  | .lit _ => true
  | .and fs => fs.all isLit
  | _ => false
/-- conjunctive normal form: a constant, a clause or a conjunction of clauses -/
def isCNF : Fm α → Bool
  | .tru => true
  | .fls => true
  | .and fs => fs.all isClause
  | f => isClause f
/-- disjunctive normal form -/
def isDNF : Fm α → Bool
  | .tru => true
  | .fls => true
  | .or fs => fs.all isMinterm
  | f => isMinterm f

mutual
/-- negation normal form: only constants, literals, conjunctions and disjunctions -/
def isNNF : Fm α → Bool
  | .tru => true
  | .fls => true
  | .lit _ => true
  | .and fs => isNNFL fs
  | .or fs => isNNFL fs
  | _ => false
def isNNFL : List (Fm α) → Bool
  | [] => true
  | f :: fs => isNNF f && isNNFL fs
end
theorem isNNFL_eq (fs : List (Fm α)) : isNNFL fs = fs.all isNNF := by
  induction fs with
  | nil => rfl
  | cons f fs ih => simp [isNNFL, ih]
@[simp] theorem isNNF_tru : isNNF (.tru : Fm α) = true := by simp [isNNF]
@[simp] theorem isNNF_fls : isNNF (.fls : Fm α) = true := by simp [isNNF]
@[simp] theorem isNNF_lit (l : Lit α) : isNNF (.lit l) = true := by simp [isNNF]
@[simp] theorem isNNF_and (fs : List (Fm α)) : isNNF (.and fs) = fs.all isNNF := by simp [isNNF, isNNFL_eq]
@[simp] theorem isNNF_or (fs : List (Fm α)) : isNNF (.or fs) = fs.all isNNF := by simp [isNNF, isNNFL_eq]

mutual
/-- and-inverter graph: only constants, literals, conjunctions and negations -/
def isAIG : Fm α → Bool
  | .tru => true
  | .fls => true
  | .lit _ => true
  | .not f => isAIG f
  | .and fs => isAIGL fs
  | _ => false
def isAIGL : List (Fm α) → Bool
  | [] => true
  | f :: fs => isAIG f && isAIGL fs
end
theorem isAIGL_eq (fs : List (Fm α)) : isAIGL fs = fs.all isAIG := by
  induction fs with
  | nil => rfl
  | cons f fs ih => simp [isAIGL, ih]
@[simp] theorem isAIG_tru : isAIG (.tru : Fm α) = true := by simp [isAIG]
@[simp] theorem isAIG_fls : isAIG (.fls : Fm α) = true := by simp [isAIG]
@[simp] theorem isAIG_lit (l : Lit α) : isAIG (.lit l) = true := by simp [isAIG]
@[simp] theorem isAIG_not (f : Fm α) : isAIG (.not f) = isAIG f := by simp [isAIG]
@[simp] theorem isAIG_and (fs : List (Fm α)) : isAIG (.and fs) = fs.all isAIG := by simp [isAIG, isAIGL_eq]

/-- `T` is a conjunctive normal form of `f` with additional variables from `A`: models of `T` are models of `f`, and every model of `f` becomes
a model of `T` by changing the values of variables in `A` only. -/
structure CnfOf (A : α → Prop) (f T : Fm α) : Prop where
  cnf : isCNF T = true
  sound : ∀ w, T.eval w = true → f.eval w = true
  extend : ∀ v, f.eval v = true → ∃ w, (∀ x, ¬A x → w x = v x) ∧ T.eval w = true
  vars : ∀ x ∈ T.vars, x ∈ f.vars ∨ A x

end Verif.Spec
