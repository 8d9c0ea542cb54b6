import Verif.Assignment.Model
import Verif.Encoding.CC
/-!
# Model of the package `transformation`

Substitution, literal substitution, anonymizer, expansion of cardinality constraints, quantifier elimination.  Formulas are trees, results are built with
the tree constructors.
-/
namespace Verif.Transform
open Verif Verif.Tree Verif.Assignment Verif.Enc
variable {α : Type} [DecidableEq α]

/-- variables of the loop in substitution.go:94-123 -/
structure SAcc (α : Type) where
  terms : List (Int × Lit α)
  lhsFixed : Int

/-- substitution.go:98-122, the loop body; `none` is the error -/
def substStep (σ : α → Option (Fm α)) (r : SAcc α) (t : Int × Lit α) : Option (SAcc α) :=
  match σ t.2.var with
  | none => some { r with terms := r.terms ++ [t] }
  | some .tru => some (if t.2.pos then { r with lhsFixed := r.lhsFixed + t.1 } else r)
  | some .fls => some (if t.2.pos then r else { r with lhsFixed := r.lhsFixed + t.1 })
  | some (.lit m) => some { r with terms := r.terms ++ [(t.1, if t.2.pos then m else m.neg)] }
  | some _ => none

/-- substitution.go:92-129 `substitutePbc` -/
def substPBC (σ : α → Option (Fm α)) (c : Cmp) (k : Int) (ts : List (Int × Lit α)) : Option (Fm α) :=
  (foldOpt (substStep σ) ⟨[], 0⟩ ts).map fun r =>
    if r.terms.isEmpty then tConst (evalCmp r.lhsFixed k c) else tPBC c (k - r.lhsFixed) r.terms

/-- substitution.go:44-53, a literal -/
def substLit (σ : α → Option (Fm α)) (l : Lit α) : Fm α :=
  match σ l.var with
  | none => .lit l
  | some g => if l.pos then g else tNot g

mutual
/-- substitution.go:39-90 `Substitute`; the map of the substitution is a partial function -/
def subst (cons : Bool) (σ : α → Option (Fm α)) : Fm α → Option (Fm α)
  | .tru => some .tru
  | .fls => some .fls
  | .lit l => some (substLit σ l)
  | .not f => (subst cons σ f).map tNot
  | .impl f g => match subst cons σ f, subst cons σ g with | some a, some b => some (tImpl cons a b) | _, _ => none
  | .equiv f g => match subst cons σ f, subst cons σ g with | some a, some b => some (tEquiv cons a b) | _, _ => none
  | .and fs => (substL cons σ fs).map (tAnd cons)
  | .or fs => (substL cons σ fs).map (tOr cons)
  | .cc c k xs => substPBC σ c k (ccTerms xs)
  | .pbc c k ts => substPBC σ c k ts
def substL (cons : Bool) (σ : α → Option (Fm α)) : List (Fm α) → Option (List (Fm α))
  | [] => some []
  | f :: fs => match subst cons σ f, substL cons σ fs with | some a, some b => some (a :: b) | _, _ => none
end

/-- literal_substitution.go:22-34, a literal -/
def litSub (σ : Lit α → Option (Lit α)) (l : Lit α) : Lit α :=
  match σ l with
  | some m => m
  | none => if l.pos then l else match σ l.neg with | some m => m.neg | none => l

mutual
/-- literal_substitution.go:15-61 `SubstituteLiterals` -/
def substLits (cons : Bool) (σ : Lit α → Option (Lit α)) : Fm α → Fm α
  | .tru => .tru
  | .fls => .fls
  | .lit l => .lit (litSub σ l)
  | .not f => tNot (substLits cons σ f)
  | .impl f g => tImpl cons (substLits cons σ f) (substLits cons σ g)
  | .equiv f g => tEquiv cons (substLits cons σ f) (substLits cons σ g)
  | .and fs => tAnd cons (substLitsL cons σ fs)
  | .or fs => tOr cons (substLitsL cons σ fs)
  | .cc c k xs => tPBC c k ((ccTerms xs).map fun t => (t.1, litSub σ t.2))
  | .pbc c k ts => tPBC c k (ts.map fun t => (t.1, litSub σ t.2))
def substLitsL (cons : Bool) (σ : Lit α → Option (Lit α)) : List (Fm α) → List (Fm α)
  | [] => []
  | f :: fs => substLits cons σ f :: substLitsL cons σ fs
end

/-! ### anonymizer -/

/-- anonymizer.go:13-18 `Anonymizer`: the substitution (newest entry first) and the counter.  The name `prefix ++ counter` is given by an injective
function `name`. -/
structure Anon (α : Type) where
  map : List (α × α)
  counter : Nat

/-- anonymizer.go:33-37 -/
def anonInit : Anon α := ⟨[], 0⟩

/-- the loop body, anonymizer.go:48-54 -/
def anonVar (name : Nat → α) (a : Anon α) (x : α) : Anon α :=
  match a.map.lookup x with
  | some _ => a
  | none => ⟨(x, name a.counter) :: a.map, a.counter + 1⟩

def anonSubst (a : Anon α) (x : α) : Option (Fm α) := (a.map.lookup x).map fun y => .lit ⟨y, true⟩

/-- anonymizer.go:43-57 `Anonymize`; `order` lists the variables of the formula in the order of `Content()`.  The error of `Substitute` is ignored by the
code: the result is then the zero value, i.e. the constant false. -/
def anonymize (cons : Bool) (name : Nat → α) (order : Fm α → List α) (a : Anon α) (f : Fm α) : Fm α × Anon α :=
  let a' := (order f).foldl (anonVar name) a
  if (order f).isEmpty then (f, a) else ((subst cons (anonSubst a') f).getD .fls, a')

/-! ### expansion of at-most-one and exactly-one constraints -/

/-- the user variable of a literal of an encoding without auxiliary variables -/
def userLit : Lit (EV α) → Option (Lit α)
  | ⟨.usr a, p⟩ => some ⟨a, p⟩
  | ⟨.aux _, _⟩ => none

/-- pure_expansion.go:46-53 with the pure encoding (encoding/cc_encoding.go `EncodeCC` for the constraints accepted by `isValidCC`) -/
def expandCC (cons : Bool) (c : Cmp) (k : Int) (xs : List α) : Option (Fm α) :=
  if (c = .le ∧ k = 1) ∨ (c = .lt ∧ k = 2) ∨ (c = .eq ∧ k = 1) then
    (encodeCC [] ⟨⟨.pure, 20, 4, 3, .sqrt, 3⟩, .best, .best, .best⟩ 0 0 c k.toNat (usrs xs)).map fun r => tAnd cons (r.1.map fun cl => tClause (cl.filterMap userLit))
  else none

mutual
/-- pure_expansion.go:14-63 `ExpandAMOAndEXO`; `none` is the error -/
def expand (cons : Bool) : Fm α → Option (Fm α)
  | .tru => some .tru
  | .fls => some .fls
  | .lit l => some (.lit l)
  | .not f => (expand cons f).map tNot
  | .impl f g => match expand cons f, expand cons g with | some a, some b => some (tImpl cons a b) | _, _ => none
  | .equiv f g => match expand cons f, expand cons g with | some a, some b => some (tEquiv cons a b) | _, _ => none
  | .and fs => (expandL cons fs).map (tAnd cons)
  | .or fs => (expandL cons fs).map (tOr cons)
  | .cc c k xs => expandCC cons c k xs
  | .pbc _ _ _ => none
def expandL (cons : Bool) : List (Fm α) → Option (List (Fm α))
  | [] => some []
  | f :: fs => match expand cons f, expandL cons fs with | some a, some b => some (a :: b) | _, _ => none
end

/-! ### quantifier elimination -/

/-- `assignment.New(fac, lit)` of one literal -/
def asg1 (x : α) (p : Bool) : Asg α := (new [⟨x, p⟩]).getD empty

/-- qe.go:11-19 `ExistentialQE` -/
def existsQE (cons : Bool) (f : Fm α) (xs : List α) : Fm α :=
  xs.foldl (fun r x => tOr cons [restrict cons (asg1 x true) r, restrict cons (asg1 x false) r]) f
/-- qe.go:24-32 `UniversalQE` -/
def forallQE (cons : Bool) (f : Fm α) (xs : List α) : Fm α :=
  xs.foldl (fun r x => tAnd cons [restrict cons (asg1 x true) r, restrict cons (asg1 x false) r]) f

end Verif.Transform
