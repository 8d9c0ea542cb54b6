import Verif.Encoding.CC
/-!
# Model of the incremental cardinality constraints

encoding/cc_incremental_data.go and the functions creating its data (cc_encoding.go:75-118 `EncodeIncremental`, 262-333).  The clauses of the
result are accumulated.  Bounds are natural numbers; a negative upper bound and a lower bound above the number of variables make the code panic
on an index out of range with every encoder, as does a comparator `=`; panics are `none`.
-/
namespace Verif.Enc
open Verif
variable {α : Type}

/-- cc_incremental_data.go:12-21; `cls` are the clauses of `Result`, `k` the counter of the factory -/
structure Inc (α : Type) where
  cls : List (Clause α)
  k : Nat
  enc : AmkEnc
  vec1 : List (Lit (EV α))
  vec2 : List (Lit (EV α))
  mod : Nat
  nVars : Nat
  cur : Nat

/-- cc_incremental_data.go:45-82 `computeUbConstraint` -/
def newUpper (s : Inc α) (rhs : Nat) : Option (Inc α) :=
  if rhs ≥ s.cur then none
  else
    match s.enc with
    | .modular => some { s with cur := rhs, cls := s.cls ++ mtOutput s.mod s.vec1 s.vec2 rhs }
    | .totalizer => some { s with cur := rhs, cls := s.cls ++ totUpper s.vec1 rhs }
    | .network => some { s with cur := rhs, cls := s.cls ++ ocl [oneg s.vec1[rhs]?] }
    | .best => none

/-- cc_incremental_data.go:106-145 `computeLbConstraint`, for data of an at-least constraint; then `rhs > nVars` panics -/
def newLower (s : Inc α) (rhs : Nat) : Option (Inc α) :=
  if rhs ≤ s.cur then none
  else if rhs > s.nVars then none
  else
    match s.enc with
    | .totalizer => some { s with cur := rhs, cls := s.cls ++ totLower s.vec1 rhs }
    | .modular => some { s with cur := rhs, cls := s.cls ++ mtOutput s.mod s.vec1 s.vec2 (s.nVars - rhs) }
    | .network => some { s with cur := rhs, cls := s.cls ++ ocl [oneg s.vec1[s.nVars - rhs]?] }
    | .best => none

def mkInc (e : AmkEnc) (n rhs : Nat) (r : CCRes α) : Inc α := ⟨r.cls, r.k, e, r.vec1, r.vec2, r.mod, n, rhs⟩

/-- cc_encoding.go:262-287 `amkIncremental`: the added clauses, and the data or the error -/
def amkInc (z : Clause α) (cfg : CCCfg) (k : Nat) (vars : List (Lit (EV α))) (rhs : Nat) : (List (Clause α) × Nat) × Option (Inc α) :=
  if rhs ≥ vars.length then (([], k), none)
  else if rhs = 0 then ((units (vars.map Lit.neg), k), none)
  else
    let d := match cfg.amk with
      | .totalizer => mkInc .totalizer vars.length rhs (totalizerAMK k vars rhs)
      | .modular => mkInc .modular vars.length rhs (modAMK k vars rhs)
      | .best => mkInc .modular vars.length rhs (modAMK k vars rhs)
      | .network => mkInc .network vars.length rhs (cnAmkInc z k vars rhs)
    ((d.cls, d.k), some d)
/-- cc_encoding.go:289-325 `alkIncremental` -/
def alkInc (z : Clause α) (cfg : CCCfg) (k : Nat) (vars : List (Lit (EV α))) (rhs : Nat) : (List (Clause α) × Nat) × Option (Inc α) :=
  if rhs > vars.length then (([[]], k), none)
  else if rhs = 0 then (([], k), none)
  else if rhs = 1 then (([vars], k), none)
  else if rhs = vars.length then ((units vars, k), none)
  else
    let d := match cfg.alk with
      | .totalizer => mkInc .totalizer vars.length rhs (totalizerALK k vars rhs)
      | .modular => mkInc .modular vars.length rhs (modALK k vars rhs)
      | .best => mkInc .modular vars.length rhs (modALK k vars rhs)
      | .network => mkInc .network vars.length rhs (cnAlkInc z k vars rhs)
    ((d.cls, d.k), some d)
/-- cc_encoding.go:90-118 `EncodeIncremental`; the outer `none` is the panic for `=` (and, not modelled, the right-hand side −1 of `<`) -/
def encodeInc (z : Clause α) (cfg : CCCfg) (k : Nat) (c : Cmp) (rhs : Nat) (vars : List (Lit (EV α))) : Option ((List (Clause α) × Nat) × Option (Inc α)) :=
  match c with
  | .le => some (amkInc z cfg k vars rhs)
  | .lt => if rhs = 0 then none else some (amkInc z cfg k vars (rhs - 1))
  | .ge => some (alkInc z cfg k vars rhs)
  | .gt => some (alkInc z cfg k vars (rhs + 1))
  | .eq => none

/-- a sequence of calls of `NewUpperBound` (or of `NewLowerBound`) -/
def tighten (op : Inc α → Nat → Option (Inc α)) (s : Inc α) : List Nat → Option (Inc α)
  | [] => some s
  | r :: rs => match op s r with
    | none => none
    | some s' => tighten op s' rs

end Verif.Enc
