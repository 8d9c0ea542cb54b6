import Verif.MaxSat.LinearSUW

/-! # WBO (alg_wbo.go): model -/

namespace Verif.MaxAlg

open Verif.MaxSat (litVal clauseVal costC)

/-- config.go `WeightStrategy` -/
inductive WStrat where
  | none
  | normal
  | diversify
deriving DecidableEq

/-- config.go `Symmetry`, `Limit`, `WeightStrategy` -/
structure WCfg where
  sym : Bool := true
  limit : Nat := 2 ^ 63 - 1
  strat : WStrat := .none

/-- a soft clause with its weight, its relaxation variables, its assumption literal and its entry in `incSoft` (only used by IncWBO) -/
structure WSft where
  cl : List Nat
  w : Nat
  vars : List Nat
  a : Nat
  inc : Bool := false
deriving DecidableEq

/-- the clause on the solver (alg_wbo.go:160-165, alg_incwbo.go:114-117) -/
def WSft.clause (y : WSft) : List Nat := y.cl ++ y.vars ++ [y.a]

/-- the variables of the search: `nbVars`, `hardClauses`, `softClauses`, `nbCores`, `softMapping` with `relaxationMapping` (in parallel: core and relaxation literal), `indexSoftCore`,
`duplicatedSymmetryClauses`, `nbSymmetryClauses` -/
structure Wbo where
  n : Nat
  hard : List (List Nat)
  soft : List WSft
  nb : Nat := 0
  sm : List (List (Nat × Nat)) := []
  ix : List Nat := []
  dup : List (Nat × Nat) := []
  nsym : Nat := 0

/-- alg_wbo.go:70-75, 139-146 `initSymmetry`, `initAssumptions` -/
def Prob.wboInit (P : Prob) : Wbo :=
  { n := P.n + P.soft.length, hard := P.hard, soft := P.soft.zipIdx.map fun ci => ⟨ci.1.1, ci.1.2, [], 2 * (P.n + ci.2), false⟩, sm := P.soft.map fun _ => [] }

/-- alg_wbo.go:128 `rebuildHardSolver` -/
def Prob.hardSol (P : Prob) : Sol := ⟨P.n, P.hard⟩

/-- alg_wbo.go:148-170, 425-450 `rebuildSolver` (for the weight 0), `rebuildWeightSolver`: the hard clauses are loaded before `symmetryBreaking` adds to them -/
def Wbo.sol (st : Wbo) (w : Nat) : Sol := ⟨st.n, st.hard ++ (st.soft.filter fun y => decide (w ≤ y.w)).map WSft.clause⟩

/-- the assumptions (alg_wbo.go:144, 279): all soft clauses in order -/
def Wbo.asm (st : Wbo) : List Nat := st.soft.map fun y => neg y.a

/-- `coreMapping`: the soft clause of an assumption literal; the literals are distinct.  A missing entry would be 0. -/
def coreIdxW (soft : List WSft) (p : Nat) : Nat := (soft.findIdx? fun y => decide (y.a = p)).getD 0

/-- alg_wbo.go:239 `computeCostCore` -/
def coreCost (unw : Bool) (soft : List WSft) (core : List Nat) : Nat :=
  if unw then 1 else core.foldl (fun mc p => match soft[coreIdxW soft p]? with
    | none => mc
    | some y => if y.w < mc then y.w else mc) (2 ^ 63 - 1)

/-- alg_wbo.go:289 `symmetryLog`; `r` is the last relaxation variable of the soft clause `p` -/
def Wbo.log (cfg : WCfg) (st : Wbo) (p r : Nat) : Wbo :=
  if cfg.sym && decide (st.nsym < cfg.limit) then
    let sm := st.sm ++ List.replicate (p + 1 - st.sm.length) []
    let row := sm.getD p [] ++ [(st.nb, r)]
    { st with sm := sm.set p row, ix := if 1 < row.length then st.ix ++ [p] else st.ix }
  else st

/-- alg_wbo.go:255-284: a soft clause of the conflict gets a relaxation variable; it is split if its weight is greater -/
def Wbo.relax1 (cfg : WCfg) (mc : Nat) (x : Wbo × List Nat) (q : Nat) : Option (Wbo × List Nat) :=
  let st := x.1
  let i := coreIdxW st.soft q
  match st.soft[i]? with
  | none => none
  | some y =>
    let p := 2 * st.n
    if y.w = mc then some (Wbo.log cfg { st with n := st.n + 1, soft := st.soft.set i { y with vars := y.vars ++ [p] } } i p, x.2 ++ [p])
    else some (Wbo.log cfg { st with n := st.n + 2, soft := st.soft.set i { y with w := y.w - mc } ++ [⟨y.cl, mc, y.vars ++ [p], 2 * (st.n + 1), false⟩] } st.soft.length p, x.2 ++ [p])

/-- alg_wbo.go:308-325, enc_ladder.go:9-28: the clauses for exactly one literal, with the auxiliary variables from `b` on -/
def ladder (lits : List Nat) (b : Nat) : List (List Nat) :=
  lits.zipIdx.flatMap fun li =>
    let l := li.1
    let i := li.2
    if i = 0 then [[l, neg (2 * b)], [neg l, 2 * b]]
    else if i + 1 = lits.length then [[l, 2 * (b + i - 1)], [neg l, neg (2 * (b + i - 1))]]
    else [[neg (2 * (b + i - 1)), 2 * (b + i)], [l, neg (2 * (b + i)), 2 * (b + i - 1)], [neg l, 2 * (b + i)], [neg l, neg (2 * (b + i - 1))]]

/-- alg_wbo.go:304 `encodeEO`, enc_ladder.go:5 `encodeLadder`: the clauses and the number of auxiliary variables; without literals `make` panics -/
def encodeEO (lits : List Nat) (b : Nat) : Option (List (List Nat) × Nat) := match lits with
  | [] => none
  | [l] => some ([[l]], 0)
  | _ => some (ladder lits b, lits.length - 1)

/-- alg_wbo.go:253 `relaxCore` -/
def Wbo.relaxCore (cfg : WCfg) (mc : Nat) (st : Wbo) (core : List Nat) : Option Wbo :=
  (core.foldlM (Wbo.relax1 cfg mc) (st, [])).bind fun x => (encodeEO x.2 x.1.n).map fun e => { x.1 with n := x.1.n + e.2, hard := e.1 ++ x.1.hard }

/-- alg_wbo.go:183-195: `coreIntersection[c]` with `coreIntersectionCurrent[c]` after the soft clauses `pre` (both get an entry for each soft clause) -/
def symTab (sm : List (List (Nat × Nat))) (pre : List Nat) (c : Nat) : List (Nat × Nat) :=
  pre.flatMap fun p => match (sm.getD p []).getLast? with
    | none => []
    | some b => ((sm.getD p []).dropLast.filter fun e => decide (e.1 = c)).map fun e => (e.2, b.2)

/-- alg_wbo.go:186-188: `coreList` -/
def symCores (sm : List (List (Nat × Nat))) (pre : List Nat) : List Nat := (pre.flatMap fun p => (sm.getD p []).dropLast.map (·.1)).eraseDups

/-- alg_wbo.go:197-201: the loops over `n` and `j` -/
def symPairs : List (Nat × Nat) → List (Nat × Nat)
  | [] => []
  | a :: l => l.map (fun b => (a.1, b.2)) ++ symPairs l

/-- alg_wbo.go:180-204: all pairs in the order of the loops -/
def symCands (sm : List (List (Nat × Nat))) (ix : List Nat) : List (Nat × Nat) :=
  (List.range ix.length).flatMap fun i => (symCores sm (ix.take (i + 1))).flatMap fun c => symPairs (symTab sm (ix.take (i + 1)) c)

/-- alg_wbo.go:202-212: the key of a clause -/
def symKey (xy : Nat × Nat) : Nat × Nat := if xy.2 / 2 < xy.1 / 2 then (xy.2 / 2, xy.1 / 2) else (xy.1 / 2, xy.2 / 2)

/-- alg_wbo.go:199-229: a clause is added unless it is already there; all loops end when the limit is reached -/
def Wbo.addSym (cfg : WCfg) (st : Wbo) (xy : Nat × Nat) : Wbo :=
  if st.nsym = cfg.limit ∨ symKey xy ∈ st.dup then st
  else { st with hard := [neg xy.1, neg xy.2] :: st.hard, dup := symKey xy :: st.dup, nsym := st.nsym + 1 }

/-- alg_wbo.go:171 `symmetryBreaking` -/
def Wbo.symBreak (cfg : WCfg) (st : Wbo) : Wbo :=
  if cfg.sym then
    { (if st.ix ≠ [] ∧ st.nsym < cfg.limit then (symCands st.sm st.ix).foldl (Wbo.addSym cfg) st else st) with ix := [] }
  else st

/-- algorithm.go:170 `computeCostModel` on the split soft clauses -/
def Wbo.cost (st : Wbo) (u : Nat → Bool) : Nat := costC u (st.soft.map fun y => (y.cl, y.w))

/-- alg_wbo.go:85-108, the loop of `normalSearch`; `s` is the solver -/
def wboN (cfg : WCfg) (unw : Bool) (O : Orc) (H : Nat → Bool) : Nat → Nat → Wbo → Sol → Nat → Nat → (Nat → Bool) → Option Res
  | 0, _, _, _, _, _, _ => none
  | f + 1, k, st, s, lb, ub, u => match O k s st.asm with
    | .cancel => some .cancel
    | .sat v => some (.opt (st.cost v) v)
    | .unsat core =>
      let mc := coreCost unw st.soft core
      if lb + mc = ub then some (.opt ub u)
      else if H k = false then some .cancel
      else (Wbo.relaxCore cfg mc { st with nb := st.nb + 1 } core).bind fun st => wboN cfg unw O H f (k + 1) (st.symBreak cfg) (st.sol 0) (lb + mc) ub u

/-- alg_wbo.go:388 `findNextWeight` -/
def nextWt (ws : List Nat) (weight : Nat) : Nat := ws.foldl (fun nw w => if nw < w ∧ w < weight then w else nw) 1

/-- alg_wbo.go:407-415: enough soft clauses for their number of weights -/
def enoughWt (ws : List Nat) (w : Nat) : Bool :=
  let xs := ws.filter fun x => decide (w ≤ x)
  decide (5 * xs.eraseDups.length < 4 * xs.length) || decide (xs.length = ws.length)

/-- alg_wbo.go:398 `findNextWeightDiversity`; `multi` is `m.nbSatisfiable > 1`, `next` is `findNext` -/
def diversityWt (ws : List Nat) (multi : Bool) : Nat → Bool → Nat → Option Nat
  | 0, _, _ => none
  | f + 1, next, w =>
    let w := if multi || next then nextWt ws w else w
    if enoughWt ws w then some w else diversityWt ws multi f (next || !multi) w

/-- alg_wbo.go:379 `updateCurrentWeight` -/
def updateWt (strat : WStrat) (ws : List Nat) (multi : Bool) (w : Nat) : Option Nat := match strat with
  | .none => some w
  | .normal => some (nextWt ws w)
  | .diversify => diversityWt ws multi (w + 2) false w

/-- alg_wbo.go:341-376, the loop of `weightSearch`; `w` is `currentWeight`; `nbCurrentSoft` is counted for the soft clauses the solver was built with -/
def wboW (cfg : WCfg) (O : Orc) (H : Nat → Bool) : Nat → Nat → Wbo → Sol → Nat → Nat → Nat → (Nat → Bool) → Option Res
  | 0, _, _, _, _, _, _, _ => none
  | f + 1, k, st, s, w, lb, ub, u => match O k s st.asm with
    | .cancel => some .cancel
    | .sat v =>
      if (st.soft.filter fun y => decide (w ≤ y.w)).length = st.soft.length then
        some (if lb < ub then .opt lb v else .opt ub u)
      else (updateWt cfg.strat (st.soft.map (·.w)) true w).bind fun w =>
        let better := decide (st.cost v < ub)
        let ub := if better then st.cost v else ub
        let u := if better then v else u
        if lb = ub then some (.opt ub u)
        else if H k = false then some .cancel
        else wboW cfg O H f (k + 1) (st.symBreak cfg) (st.sol w) w lb ub u
    | .unsat core =>
      let mc := coreCost false st.soft core
      if H k = false then some .cancel
      else (Wbo.relaxCore cfg mc { st with nb := st.nb + 1 } core).bind fun st => wboW cfg O H f (k + 1) (st.symBreak cfg) (st.sol w) w (lb + mc) ub u

/-- alg_wbo.go:44 `search`: `unsatSearch` on the hard clauses, then one of the two searches.  (`normalSearch` reports unsatisfiability with `Result{}`.) -/
def wbo (cfg : WCfg) (P : Prob) (O : Orc) (H : Nat → Bool) (f : Nat) : Option Res :=
  let w := curWeight (P.soft.map (·.2))
  match O 0 P.hardSol [] with
  | .cancel => some .cancel
  | .unsat _ => some .unsat
  | .sat u =>
    let st := P.wboInit
    if w = 1 ∨ cfg.strat = .none then wboN cfg (decide (w = 1)) O H f 1 (st.symBreak cfg) (st.sol 0) 0 (st.cost u) u
    else (updateWt cfg.strat (P.soft.map (·.2)) false w).bind fun w => wboW cfg O H f 1 (st.symBreak cfg) (st.sol w) w 0 (st.cost u) u

end Verif.MaxAlg
