import Verif.MaxSat.IncWboSearch
import Verif.MaxSat.WboSymFalse

/-! # IncWBO with symmetry clauses and different weights -/

namespace Verif.MaxAlg

open Verif.MaxSat (litVal clauseVal costC)

/-- `a`, `b`, `c` are false; the soft clauses `a` (2), `b` (1), `c` (2), `x` (1) -/
def symIP : Prob := ⟨4, [[1], [3], [5]], [([0], 2), ([2], 1), ([4], 2), ([6], 1)]⟩

/-- the first model violates `x`; then conflicts of the soft clauses `a`, `b`, `c` and the ones made of them -/
def symITbl : Nat → Option Row
  | 0 => some (.mod [])
  | 1 => some (.pos [0, 2])
  | 2 => some (.pos [3, 0, 2])
  | 3 => some (.pos [4, 5, 2, 3, 1])
  | 4 => some (.pos [3, 5, 1, 4, 2])
  | 5 => some (.pos [1, 2, 3, 4, 5])
  | _ => none

theorem symIP_opt {O : Orc} {H : Nat → Bool} {r : Res} (h : optOf (some r) = some 6) : ¬ Right symIP O H r := by
  cases r with
  | cancel => cases h
  | unsat => cases h
  | opt c u =>
    intro hr
    have h2 := hr.2.2 (fun x => decide (x = 3)) (by unfold Prob.Holds; decide)
    have h3 : costC (fun x => decide (x = 3)) symIP.soft = 5 := by decide
    have : c = 6 := Option.some.inj h
    omega

/-- C30 is false for IncWBO with the default configuration (symmetry clauses) and different weights, for the same reason as for WBO: the search above reports 6 although the least cost is 5.
(Each conflict in the table is one the SAT solver may return; it may also return smaller ones.) -/
theorem C30_incwbo_symmetry_false : ∃ (P : Prob) (O : Orc), P.WF ∧ P.Pos ∧ (∀ c ∈ P.soft, c.1 ≠ []) ∧ O.Ok ∧ (∃ u, P.Holds u ∧ costC u P.soft = 5) ∧
    ∃ u, incWbo {} P O (fun _ => true) P.ollFuel = some (.opt 6 u) ∧ ¬ Right P O (fun _ => true) (.opt 6 u) := by
  have h : optOf (incWbo {} symIP (tabO symITbl okO) (fun _ => true) symIP.ollFuel) = some 6 := by decide +kernel
  refine ⟨symIP, tabO symITbl okO, ⟨by decide, by decide⟩, by unfold Prob.Pos; decide, by decide, tabO_ok _ okO_ok, ⟨fun x => decide (x = 3), by unfold Prob.Holds; decide, by decide⟩, ?_⟩
  cases hr : incWbo {} symIP (tabO symITbl okO) (fun _ => true) symIP.ollFuel with
  | none => rw [hr] at h; cases h
  | some r =>
    rw [hr] at h
    cases r with
    | cancel => cases h
    | unsat => cases h
    | opt c u =>
      have : c = 6 := Option.some.inj h
      subst this
      exact ⟨u, rfl, symIP_opt rfl⟩

end Verif.MaxAlg
