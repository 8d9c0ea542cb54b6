import Verif.MaxSat.WboSearch

/-! # WBO with symmetry clauses and different weights -/

namespace Verif.MaxAlg

open Verif.MaxSat (litVal clauseVal costC)

/-! ## a check for unsatisfiability -/

/-- the clauses under a literal -/
def under (l : Nat) (cs : List (List Nat)) : List (List Nat) := cs.filterMap fun c => if c.any (Nat.beq l) then none else some (c.filter fun m => !Nat.beq m (neg l))

/-- the clauses are found unsatisfiable: unit propagation and branching -/
def refute : Nat → List (List Nat) → Bool
  | 0, _ => false
  | f + 1, cs =>
    if cs.any List.isEmpty then true else match cs.find? fun c => Nat.beq c.length 1 with
    | some (l :: _) => refute f (under l cs)
    | _ => match cs with
      | (l :: _) :: _ => refute f (under l cs) && refute f (under (neg l) cs)
      | _ => false

theorem under_holds {u : Nat → Bool} {l : Nat} (hl : litVal u l = true) {cs : List (List Nat)} (h : ∀ c ∈ cs, clauseVal u c = true) : ∀ c ∈ under l cs, clauseVal u c = true := by
  intro c hc
  obtain ⟨d, hd, e⟩ := List.mem_filterMap.1 hc
  split at e
  · cases e
  · rw [← Option.some.inj e]
    obtain ⟨m, hm, ht⟩ := clauseVal_iff.1 (h d hd)
    refine clauseVal_iff.2 ⟨m, List.mem_filter.2 ⟨hm, ?_⟩, ht⟩
    cases hb : Nat.beq m (neg l) with
    | false => rfl
    | true =>
      rw [Nat.eq_of_beq_eq_true hb, litVal_neg, hl] at ht
      cases ht

theorem refute_sound {u : Nat → Bool} : ∀ {f : Nat} {cs : List (List Nat)}, refute f cs = true → ¬ ∀ c ∈ cs, clauseVal u c = true
  | 0, _, h, _ => by cases h
  | f + 1, cs, h, hc => by
    unfold refute at h
    split at h
    · rename_i he
      obtain ⟨c, hm, e⟩ := List.any_eq_true.1 he
      have := hc c hm
      rw [List.isEmpty_iff.1 e] at this
      cases this
    · split at h
      · rename_i l t hf
        have h1 := List.find?_some hf
        have h2 := hc _ (List.mem_of_find?_eq_some hf)
        have : t = [] := by
          have := Nat.eq_of_beq_eq_true h1
          simpa using this
        subst this
        have hl : litVal u l = true := by simpa [clauseVal] using h2
        exact refute_sound h (under_holds hl hc)
      · split at h
        · rename_i l _ _ _ _
          rw [Bool.and_eq_true] at h
          by_cases hl : litVal u l = true
          · exact refute_sound h.1 (under_holds hl hc)
          · exact refute_sound h.2 (under_holds (by rw [litVal_neg]; simpa using hl) hc)
        · cases h

/-! ## right answers from a table -/

/-- a model by its true variables, or a conflict by the positions of its assumptions -/
inductive Row where
  | mod (vs : List Nat)
  | pos (is : List Nat)

def rowCore (as is : List Nat) : List Nat := is.map fun i => neg (as.getD i 0)

/-- the answers in the table if they are right, the answers of `O` otherwise -/
def tabO (tbl : Nat → Option Row) (O : Orc) : Orc := fun k s as => match tbl k with
  | some (.mod vs) => if (s.cs.all fun c => clauseVal (fun x => vs.any (Nat.beq x)) c) && as.all (litVal fun x => vs.any (Nat.beq x)) then .sat (fun x => vs.any (Nat.beq x)) else O k s as
  | some (.pos is) =>
    if (rowCore as is).all (fun l => as.any (Nat.beq (neg l))) && decide (rowCore as is).Nodup && refute 1000 (((rowCore as is).map fun l => [neg l]) ++ s.cs) then .unsat (rowCore as is) else O k s as
  | none => O k s as

theorem tabO_ok (tbl : Nat → Option Row) {O : Orc} (hO : O.Ok) : (tabO tbl O).Ok := by
  intro k s as
  have ho := hO k s as
  unfold tabO
  cases tbl k with
  | none => exact ho
  | some r =>
    cases r with
    | mod vs =>
      dsimp only
      by_cases h : (s.cs.all fun c => clauseVal (fun x => vs.any (Nat.beq x)) c) && as.all (litVal fun x => vs.any (Nat.beq x))
      · rw [if_pos h]
        rw [Bool.and_eq_true, List.all_eq_true, List.all_eq_true] at h
        exact h
      · rw [if_neg h]; exact ho
    | pos is =>
      dsimp only
      by_cases h : (rowCore as is).all (fun l => as.any (Nat.beq (neg l))) && decide (rowCore as is).Nodup && refute 1000 (((rowCore as is).map fun l => [neg l]) ++ s.cs)
      · rw [if_pos h]
        rw [Bool.and_eq_true, Bool.and_eq_true, List.all_eq_true] at h
        obtain ⟨⟨h1, h2⟩, h3⟩ := h
        refine ⟨fun l hl => ?_, of_decide_eq_true h2, fun u hu => Classical.byContradiction fun hn => refute_sound (u := u) h3 fun c hc => ?_⟩
        · obtain ⟨a, ha, e⟩ := List.any_eq_true.1 (h1 l hl)
          rw [Nat.eq_of_beq_eq_true e]; exact ha
        · rcases List.mem_append.1 hc with hc | hc
          · obtain ⟨l, hl, rfl⟩ := List.mem_map.1 hc
            refine clauseVal_iff.2 ⟨_, List.mem_singleton.2 rfl, ?_⟩
            rw [litVal_neg]
            cases hv : litVal u l with
            | false => rfl
            | true => exact absurd ⟨l, hl, hv⟩ hn
          · exact hu c hc
      · rw [if_neg h]; exact ho

/-! ## the statement is false -/

/-- `a`, `b`, `c`, `d` are false; the soft clauses `a` (2), `b` (1), `c` (2), `d` (1), `x` (1) -/
def symP : Prob := ⟨5, [[1], [3], [5], [7]], [([0], 2), ([2], 1), ([4], 2), ([6], 1), ([8], 1)]⟩

/-- the first model violates `x`; then conflicts of the soft clauses `a`, `b`, `c` and the ones split from them (5 and 6), and one of `d` alone -/
def symTbl : Nat → Option Row
  | 0 => some (.mod [])
  | 1 => some (.pos [0, 2])
  | 2 => some (.pos [2, 1, 0])
  | 3 => some (.pos [0, 6, 5, 1, 2])
  | 4 => some (.pos [5, 2, 0, 1, 6])
  | 5 => some (.pos [3])
  | 6 => some (.pos [0, 1, 2, 5, 6])
  | _ => none

/-- some right answers -/
noncomputable def okO : Orc := exists_ok.choose

theorem okO_ok : okO.Ok := exists_ok.choose_spec.1

def optOf : Option Res → Option Nat
  | some (.opt c _) => some c
  | _ => none

theorem symP_opt {O : Orc} {H : Nat → Bool} {r : Res} (h : optOf (some r) = some 7) : ¬ Right symP O H r := by
  cases r with
  | cancel => cases h
  | unsat => cases h
  | opt c u =>
    intro hr
    have h2 := hr.2.2 (fun x => decide (x = 4)) (by unfold Prob.Holds; decide)
    have h3 : costC (fun x => decide (x = 4)) symP.soft = 6 := by decide
    have : c = 7 := Option.some.inj h
    omega

/-- C30 is false for WBO with the default configuration (symmetry clauses) and different weights: the soft clauses that are split keep their relaxation variables, but the symmetry clauses treat
them as if these were different.  The search above reports 7 although the least cost is 6.  (Each conflict in the table is one the SAT solver may return; it may also return smaller ones.) -/
theorem C30_wbo_symmetry_false : ∃ (P : Prob) (O : Orc), P.WF ∧ P.Pos ∧ O.Ok ∧ (∃ u, P.Holds u ∧ costC u P.soft = 6) ∧ ∃ u, wbo {} P O (fun _ => true) P.ollFuel = some (.opt 7 u) ∧ ¬ Right P O (fun _ => true) (.opt 7 u) := by
  have h : optOf (wbo {} symP (tabO symTbl okO) (fun _ => true) symP.ollFuel) = some 7 := by decide +kernel
  refine ⟨symP, tabO symTbl okO, ⟨by decide, by decide⟩, by unfold Prob.Pos; decide, tabO_ok _ okO_ok, ⟨fun x => decide (x = 4), by unfold Prob.Holds; decide, by decide⟩, ?_⟩
  cases hr : wbo {} symP (tabO symTbl okO) (fun _ => true) symP.ollFuel with
  | none => rw [hr] at h; cases h
  | some r =>
    rw [hr] at h
    cases r with
    | cancel => cases h
    | unsat => cases h
    | opt c u =>
      have : c = 7 := Option.some.inj h
      subst this
      exact ⟨u, rfl, symP_opt rfl⟩

end Verif.MaxAlg
