import Verif.Factory.TreeShape
import Verif.Spec.NormalForm
/-!
# Model of `normalform/nnf.go`, `normalform/cnf.go`, `normalform/dnf.go` (factorization), `normalform/aig.go`

The functions work on formula trees; every factory constructor is the tree constructor of `Verif.Factory.Tree` (`cons` is the factory's
`conserveVars` flag; `factory_refines_tree` connects it with the handle level).  Transformation caches of NNF and AIG store the result of a
deterministic function and are left out; the cache of the factorizations, which is written on success only, is kept.
-/
namespace Verif.NF
open Verif Verif.Tree Verif.Spec
variable {α : Type} [DecidableEq α]

/-! ### Negation normal form -/

/-- encoding/normalize.go:62-84 `NegatePBC`, on trees.  A cardinality constraint is passed to `PBC` with coefficients one. -/
def negatePBC (cons : Bool) (c : Cmp) (k : Int) (ts : List (Int × Lit α)) : Fm α :=
  match c with
  | .eq => tOr cons [tPBC .lt k ts, tPBC .gt k ts]
  | .le => tPBC .gt k ts
  | .lt => tPBC .ge k ts
  | .ge => tPBC .lt k ts
  | .gt => tPBC .le k ts

/-- the call `nnfRec(·, true)` on the result of `NegatePBC`, normalform/nnf.go:91-100: on a constraint it is the parameter `enc`
(NNF of the clauses of `EncodePBC`), on the disjunction of two constraints the disjunction of the results -/
def nnfPB (cons : Bool) (enc : Fm α → Fm α) : Fm α → Fm α
  | .or fs => tOr cons (fs.map (fun f => match f with
      | .tru => .tru
      | .fls => .fls
      | f => enc f))
  | .tru => .tru
  | .fls => .fls
  | f => enc f

def unitTerms (xs : List α) : List (Int × Lit α) := xs.map (fun x => (1, ⟨x, true⟩))

mutual
/-- normalform/nnf.go:46-108 `nnfRec`.  `enc f` stands for lines 92-97: the NNF of the clauses into which a constraint is encoded. -/
def nnf (cons : Bool) (enc : Fm α → Fm α) : Fm α → Bool → Fm α
  | .tru, p => if p then .tru else tNot .tru
  | .fls, p => if p then .fls else tNot .fls
  | .lit l, p => if p then .lit l else tNot (.lit l)
  | .not f, p => nnf cons enc f (!p)
  | .and fs, p => if p then tAnd cons (nnfL cons enc fs p) else tOr cons (nnfL cons enc fs p)
  | .or fs, p => if p then tOr cons (nnfL cons enc fs p) else tAnd cons (nnfL cons enc fs p)
  | .equiv f g, p =>
    if p then
      tAnd cons [tOr cons [nnf cons enc f false, nnf cons enc g true], tOr cons [nnf cons enc f true, nnf cons enc g false]]
    else
      tAnd cons [tOr cons [nnf cons enc f false, nnf cons enc g false], tOr cons [nnf cons enc f true, nnf cons enc g true]]
  | .impl f g, p =>
    if p then tOr cons [nnf cons enc f false, nnf cons enc g true]
    else tAnd cons [nnf cons enc f true, nnf cons enc g false]
  | .cc c k xs, p => if p then enc (.cc c k xs) else nnfPB cons enc (negatePBC cons c k (unitTerms xs))
  | .pbc c k ts, p => if p then enc (.pbc c k ts) else nnfPB cons enc (negatePBC cons c k ts)
/-- loop of `nnfRecNary`, normalform/nnf.go:110-114 -/
def nnfL (cons : Bool) (enc : Fm α → Fm α) : List (Fm α) → Bool → List (Fm α)
  | [], _ => []
  | f :: fs, p => nnf cons enc f p :: nnfL cons enc fs p
end

/-! ### Factorization.

CNF and DNF are the same algorithm with conjunction and disjunction exchanged; `d = true` is the CNF (cnf.go), `d = false` the DNF
(dnf.go).  "Outer" means conjunction for the CNF, "inner" disjunction. -/

/-- handler events asked by the factorization (event/event.go) -/
inductive Ev | started | distribution | createdClause
deriving DecidableEq, Repr

/-- an arbitrary handler: `ShouldResume` may answer anything and keep any state -/
structure Hdl (σ : Type) where
  resume : σ → Ev → Bool × σ

/-- state threaded through a factorization: the handler's state and the transformation cache (latest entry first) -/
structure FS (σ α : Type) where
  h : σ
  cache : List (Fm α × Fm α)

def outerJoin (cons d : Bool) (fs : List (Fm α)) : Fm α := if d then tAnd cons fs else tOr cons fs
def innerJoin (cons d : Bool) (fs : List (Fm α)) : Fm α := if d then tOr cons fs else tAnd cons fs
/-- the operands if the formula is an outer node -/
def outerOps (d : Bool) : Fm α → Option (List (Fm α))
  | .and fs => if d then some fs else none
  | .or fs => if d then none else some fs
  | _ => none

/-- ask the handler -/
def ask {σ : Type} (h : Hdl σ) (e : Ev) (s : FS σ α) : Bool × FS σ α :=
  ((h.resume s.h e).1, { s with h := (h.resume s.h e).2 })

omit [DecidableEq α] in
theorem outerOps_size {d : Bool} {f : Fm α} {fs : List (Fm α)} (h : outerOps d f = some fs) : sizeOf fs < sizeOf f := by
  cases f <;> simp [outerOps] at h
  · obtain ⟨_, rfl⟩ := h; simp
  · obtain ⟨_, rfl⟩ := h; simp

mutual
/-- cnf.go:209-236 `distributeCNF`, dnf.go:116-143 `distributeDNF`.  Result: formula, success flag, new state.
A cancelled run returns the formula handle 0, i.e. the constant false (or the last clause). -/
def distribute {σ : Type} (cons d : Bool) (h : Hdl σ) (f1 f2 : Fm α) (s : FS σ α) : (Fm α × Bool) × FS σ α :=
  let r := ask h .distribution s
  if !r.1 then ((.fls, false), r.2)
  else
    match e1 : outerOps d f1 with
    | some ops =>
      have := outerOps_size e1
      let q := distributeL cons d h ops f2 r.2
      if !q.1.2 then ((.fls, false), q.2) else ((outerJoin cons d q.1.1, true), q.2)
    | none =>
      match e2 : outerOps d f2 with
      | some ops =>
        have := outerOps_size e2
        let q := distributeL cons d h ops f1 r.2
        if !q.1.2 then ((.fls, false), q.2) else ((outerJoin cons d q.1.1, true), q.2)
      | none =>
        let clause := innerJoin cons d [f1, f2]
        let q := ask h .createdClause r.2
        ((clause, q.1), q.2)
termination_by sizeOf f1 + sizeOf f2
decreasing_by all_goals omega
/-- loop in `distributeCNF`, cnf.go:223-229 -/
def distributeL {σ : Type} (cons d : Bool) (h : Hdl σ) (ops : List (Fm α)) (form : Fm α) (s : FS σ α) : (List (Fm α) × Bool) × FS σ α :=
  match ops with
  | [] => (([], true), s)
  | op :: ops =>
    let r := distribute cons d h op form s
    if !r.1.2 then (([], false), r.2)
    else
      let q := distributeL cons d h ops form r.2
      ((r.1.1 :: q.1.1, q.1.2), q.2)
termination_by sizeOf ops + sizeOf form
decreasing_by all_goals (simp; try omega)
end

/-- distribution loop of the inner case, cnf.go:178-184 -/
def distAll {σ : Type} (cons d : Bool) (h : Hdl σ) (acc : Fm α) : List (Fm α) → FS σ α → (Fm α × Bool) × FS σ α
  | [], s => ((acc, true), s)
  | f :: fs, s =>
    let r := distribute cons d h acc f s
    if !r.1.2 then ((.fls, false), r.2) else distAll cons d h r.1.1 fs r.2

/-- transformation cache lookup: entries for formulas already in CNF are made at their construction, formula/factory.go:806-813 -/
def lookupCache {σ : Type} (d : Bool) (f : Fm α) (s : FS σ α) : Option (Fm α) :=
  if d && isCNF f then some f else s.cache.lookup f
/-- end of `factorizedCNFRec`, cnf.go:202-206: the cache is written on success only -/
def finish {σ : Type} (f : Fm α) (r : (Fm α × Bool) × FS σ α) : (Fm α × Bool) × FS σ α :=
  if r.1.2 then (r.1, { r.2 with cache := (f, r.1.1) :: r.2.cache }) else ((.fls, false), r.2)
/-- with cache lookup first, cnf.go:154-157 -/
def cached {σ : Type} (d : Bool) (f : Fm α) (s : FS σ α) (k : (Fm α × Bool) × FS σ α) : (Fm α × Bool) × FS σ α :=
  match lookupCache d f s with
  | some g => ((g, true), s)
  | none => finish f k

section
variable {σ : Type} (cons d : Bool) (h : Hdl σ) (enc : Fm α → Fm α) (onNNF : Fm α → FS σ α → (Fm α × Bool) × FS σ α)
mutual
/-- cnf.go:150-207 `factorizedCNFRec`, dnf.go:61-114 `factorizedDNFRec`.  The recursive call on the NNF of a negation, implication,
equivalence (DNF also: constraint) is the parameter `onNNF`, tied in `factRec`. -/
def factBody : Fm α → FS σ α → (Fm α × Bool) × FS σ α
  | .tru, s => ((.tru, true), s)
  | .fls, s => ((.fls, true), s)
  | .lit l, s => ((.lit l, true), s)
  | .not f, s => cached d (.not f) s (onNNF (nnf cons enc (.not f) true) s)
  | .impl f g, s => cached d (.impl f g) s (onNNF (nnf cons enc (.impl f g) true) s)
  | .equiv f g, s => cached d (.equiv f g) s (onNNF (nnf cons enc (.equiv f g) true) s)
  | .cc c k xs, s => cached d (.cc c k xs) s
      (if d then ((nnf cons enc (.cc c k xs) true, true), s) else onNNF (nnf cons enc (.cc c k xs) true) s)
  | .pbc c k ts, s => cached d (.pbc c k ts) s
      (if d then ((nnf cons enc (.pbc c k ts) true, true), s) else onNNF (nnf cons enc (.pbc c k ts) true) s)
  | .and fs, s => cached d (.and fs) s
      (let r := factOps fs s
       if !r.1.2 then ((.fls, false), r.2)
       else if d then ((tAnd cons r.1.1, true), r.2)
       else match r.1.1 with
         | [] => ((.tru, true), r.2)
         | g :: gs => distAll cons d h g gs r.2)
  | .or fs, s => cached d (.or fs) s
      (let r := factOps fs s
       if !r.1.2 then ((.fls, false), r.2)
       else if d then
         match r.1.1 with
         | [] => ((.fls, true), r.2)
         | g :: gs => distAll cons d h g gs r.2
       else ((tOr cons r.1.1, true), r.2))
/-- operand loops, cnf.go:168-176 and 188-195: left as soon as one operand was cancelled.  (An n-ary node without operands, for which the
code would panic at `nops[0]`, does not exist on a factory, C05.) -/
def factOps : List (Fm α) → FS σ α → (List (Fm α) × Bool) × FS σ α
  | [], s => (([], true), s)
  | f :: fs, s =>
    let r := factBody f s
    if !r.1.2 then (([], false), r.2)
    else
      let q := factOps fs r.2
      ((r.1.1 :: q.1.1, q.1.2), q.2)
end
end

/-- `factorizedCNFRec` / `factorizedDNFRec`.  The NNF contains no negation, implication, equivalence or constraint, so the recursion through
`onNNF` has depth one; the innermost parameter is never called (`nnf_isNNF`). -/
def factRec {σ : Type} (cons d : Bool) (h : Hdl σ) (enc : Fm α → Fm α) : Fm α → FS σ α → (Fm α × Bool) × FS σ α :=
  factBody cons d h enc (factBody cons d h enc (fun f s => ((f, true), s)))

/-- cnf.go:143-148 `FactorizedCNFWithHandler`, dnf.go:54-59 -/
def factorizeWithHandler {σ : Type} (cons d : Bool) (h : Hdl σ) (enc : Fm α → Fm α) (f : Fm α) (s : FS σ α) : (Fm α × Bool) × FS σ α :=
  let r := ask h .started s
  if !r.1 then ((.fls, false), r.2) else factRec cons d h enc f r.2

/-- handler/handler.go `NopHandler` -/
def nopHdl : Hdl Unit := ⟨fun _ _ => (true, ())⟩

/-- cnf.go:134-137 `FactorizedCNF`, dnf.go:44-47 `FactorizedDNF`, with the current content of the transformation cache -/
def factorize (cons d : Bool) (enc : Fm α → Fm α) (cache : List (Fm α × Fm α)) (f : Fm α) : Fm α × List (Fm α × Fm α) :=
  let r := factRec cons d nopHdl enc f ⟨(), cache⟩
  (r.1.1, r.2.cache)

/-- state of normalform/handler.go:6-12 `FactorizationHandler` (without the boundaries, which are constant) -/
structure BH where
  canceled : Bool
  dists : Int
  clauses : Int

/-- normalform/handler.go:22-36 `FactorizationHandler.ShouldResume` -/
def boundHdl (distBound clauseBound : Int) : Hdl BH :=
  ⟨fun s e =>
    let s' := match e with
      | .started => { s with dists := 0, clauses := 0 }
      | .distribution => { s with dists := s.dists + 1, canceled := decide (distBound ≠ -1 ∧ s.dists + 1 > distBound) }
      | .createdClause => { s with clauses := s.clauses + 1, canceled := decide (clauseBound ≠ -1 ∧ s.clauses + 1 > clauseBound) }
    (!s'.canceled, s')⟩

/-! ### And-inverter graph -/

mutual
/-- normalform/aig.go:44-91 `AIG`; `cnfOf` stands for the call `AIG(CNF(·))` on constraints -/
def aig (cons : Bool) (cnfOf : Fm α → Fm α) : Fm α → Fm α
  | .tru => .tru
  | .fls => .fls
  | .lit l => .lit l
  | .not f => tNot (aig cons cnfOf f)
  | .impl f g => tNot (tAnd cons [aig cons cnfOf f, tNot (aig cons cnfOf g)])
  | .equiv f g =>
    tAnd cons [tNot (tAnd cons [aig cons cnfOf f, tNot (aig cons cnfOf g)]), tNot (tAnd cons [tNot f, g])]
  | .and fs => tAnd cons (aigL cons cnfOf fs)
  | .or fs => tNot (tAnd cons ((aigL cons cnfOf fs).map tNot))
  | .cc c k xs => cnfOf (.cc c k xs)
  | .pbc c k ts => cnfOf (.pbc c k ts)
def aigL (cons : Bool) (cnfOf : Fm α → Fm α) : List (Fm α) → List (Fm α)
  | [] => []
  | f :: fs => aig cons cnfOf f :: aigL cons cnfOf fs
end

end Verif.NF
