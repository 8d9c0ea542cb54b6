import Verif.MaxSat.Wbo

/-! # IncWBO (alg_incwbo.go): model

The state is the one of WBO; `hard` are the clauses on the solver, which is never rebuilt. -/

namespace Verif.MaxAlg

open Verif.MaxSat (litVal clauseVal costC)

/-- alg_incwbo.go:91-187: a soft clause of the conflict is deactivated (`incSoft`, a unit clause for its assumption literal) and added again with a relaxation variable; if its weight is greater, also
without one and with the rest of the weight.  `softMapping` and `relaxationMapping` move to the first new soft clause. -/
def Wbo.relaxInc1 (cfg : WCfg) (mc : Nat) (x : Wbo × List Nat) (q : Nat) : Option (Wbo × List Nat) :=
  let st := x.1
  let i := coreIdxW st.soft q
  match st.soft[i]? with
  | none => none
  | some y =>
    if y.w = mc then
      let p := 2 * st.n
      let z : WSft := ⟨y.cl, mc, y.vars ++ [p], 2 * (st.n + 1), false⟩
      some (Wbo.log cfg { st with n := st.n + 2, soft := st.soft.set i { y with inc := true } ++ [z], hard := [y.a] :: z.clause :: st.hard,
                                  sm := if cfg.sym then st.sm.set i [] ++ [st.sm.getD i []] else st.sm } st.soft.length p, x.2 ++ [p])
    else
      let r : WSft := ⟨y.cl, y.w - mc, y.vars, 2 * st.n, false⟩
      let p := 2 * (st.n + 1)
      let z : WSft := ⟨y.cl, mc, y.vars ++ [p], 2 * (st.n + 2), false⟩
      some (Wbo.log cfg { st with n := st.n + 3, soft := st.soft.set i { y with w := y.w - mc, inc := true } ++ [r, z], hard := [y.a] :: z.clause :: r.clause :: st.hard,
                                  sm := if cfg.sym then st.sm.set i [] ++ [st.sm.getD i [], []] else st.sm } (st.soft.length + 1) p, x.2 ++ [p])

/-- alg_incwbo.go:91 `relaxCoreInc` with encoder.go:26 `encodeAMO` (the encoding of WBO) and alg_incwbo.go:217 `symmetryBreakingInc` (the clauses are added to the solver at once) -/
def Wbo.relaxCoreInc (cfg : WCfg) (mc : Nat) (st : Wbo) (core : List Nat) : Option Wbo :=
  (core.foldlM (Wbo.relaxInc1 cfg mc) (st, [])).bind fun x => (encodeEO x.2 x.1.n).map fun e => Wbo.symBreak cfg { x.1 with n := x.1.n + e.2, hard := e.1 ++ x.1.hard }

/-- alg_incwbo.go:63-68: the active soft clauses are assumed -/
def Wbo.asmInc (st : Wbo) : List Nat := (st.soft.filter fun y => !y.inc).map fun y => neg y.a

/-- alg_incwbo.go:196 `incComputeCostModel`: inactive soft clauses do not count, unless they are empty -/
def Wbo.costInc (st : Wbo) (u : Nat → Bool) : Nat := costC u ((st.soft.filter fun y => !y.inc || y.cl.isEmpty).map fun y => (y.cl, y.w))

/-- alg_incwbo.go:62-88, the loop of `normalSearchInc` -/
def incN (cfg : WCfg) (unw : Bool) (O : Orc) (H : Nat → Bool) : Nat → Nat → Wbo → Nat → Nat → (Nat → Bool) → Option Res
  | 0, _, _, _, _, _ => none
  | f + 1, k, st, lb, ub, u => match O k ⟨st.n, st.hard⟩ st.asmInc with
    | .cancel => some .cancel
    | .sat v => some (.opt (st.costInc v) v)
    | .unsat core =>
      let mc := coreCost unw st.soft core
      if lb + mc = ub then some (.opt ub u)
      else if H k = false then some .cancel
      else (Wbo.relaxCoreInc cfg mc { st with nb := st.nb + 1 } core).bind fun st => incN cfg unw O H f (k + 1) st (lb + mc) ub u

/-- alg_incwbo.go:343 `incrementalBuildWeightSolver`: the soft clauses of at least the weight are added (again) -/
def Wbo.build (st : Wbo) (w : Nat) : Wbo := { st with hard := ((st.soft.filter fun y => decide (w ≤ y.w) && decide (y.w ≠ 0)).map WSft.clause) ++ st.hard }

/-- alg_incwbo.go:303-341, the loop of `weightSearchInc`; `nbCurrentSoft` counts the soft clauses, active or not -/
def incW (cfg : WCfg) (O : Orc) (H : Nat → Bool) : Nat → Nat → Wbo → Nat → Nat → Nat → (Nat → Bool) → Option Res
  | 0, _, _, _, _, _, _ => none
  | f + 1, k, st, w, lb, ub, u => match O k ⟨st.n, st.hard⟩ st.asmInc with
    | .cancel => some .cancel
    | .sat v =>
      if (st.soft.filter fun y => decide (w ≤ y.w) && decide (y.w ≠ 0)).length = st.soft.length then
        some (if lb < ub then .opt lb v else .opt ub u)
      else (updateWt cfg.strat (st.soft.map (·.w)) true w).bind fun w =>
        let better := decide (st.costInc v < ub)
        let ub := if better then st.costInc v else ub
        let u := if better then v else u
        if lb = ub then some (.opt ub u)
        else if H k = false then some .cancel
        else incW cfg O H f (k + 1) (st.build w) w lb ub u
    | .unsat core =>
      let mc := coreCost false st.soft core
      if H k = false then some .cancel
      else (Wbo.relaxCoreInc cfg mc { st with nb := st.nb + 1 } core).bind fun st => incW cfg O H f (k + 1) (st.build w) w (lb + mc) ub u

/-- alg_incwbo.go:25 `search`; `rebuildSolver` and the first `incrementalBuildWeightSolver` find no symmetry clauses -/
def incWbo (cfg : WCfg) (P : Prob) (O : Orc) (H : Nat → Bool) (f : Nat) : Option Res :=
  let w := curWeight (P.soft.map (·.2))
  match O 0 P.hardSol [] with
  | .cancel => some .cancel
  | .unsat _ => some .unsat
  | .sat u =>
    let st := P.wboInit
    if w = 1 ∨ cfg.strat = .none then incN cfg (decide (w = 1)) O H f 1 { st with hard := (st.sol 0).cs } 0 (st.cost u) u
    else (updateWt cfg.strat (P.soft.map (·.2)) false w).bind fun w => incW cfg O H f 1 (st.build w) w 0 (st.cost u) u

end Verif.MaxAlg
