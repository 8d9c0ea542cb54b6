import Verif.Sat.Props
/-!
# Unsat cores of calls: the recorded clauses and the trivial core

`/repo/sat/call.go:233-272` (assumptions and their propositions), `/repo/sat/core.go:260-268, 497-518` (recording of original clauses),
`/repo/sat/unsat_core.go` (`computeUnsatCore` up to the DRUP check, `handleTrivialCase`) and the part of `/repo/sat/proofs.go:73-182` (`parse`) that finds the trivial case.

Simplifications
* Propositions are values of any type `π`; a proposition that is a literal is given with its solver literal.  `key` is the handle of the literal in the factory.
* Clauses are lists of solver literals instead of DRUP literals (`2v` is `v+1`, `2v+1` is `-(v+1)`).
* The DRUP check itself is not part of this file: `Core.drup`.  It is modelled in `Verif.Drup`.
-/
namespace Verif.Sat
variable {π : Type}

/-! ## model -/

/-- call.go:233-245 `initCall` with solver.go:148-163 `generateClauseVector`: the literals are sorted, their propositions are not -/
def initAsm (key : Nat → Nat) (ps : List (Nat × π)) : List Nat × List π :=
  ((ps.map (·.1)).insertionSort (fun a b => key a ≤ key b), ps.map (·.2))

/-- core.go:501-515: the clause recorded for the assumption at the current level; `none`: the index is out of range (panic) -/
def record (props : List π) (s : S) (p : Nat) : Option (List Nat × π) := (props[s.dl]?).map fun q => ([p], q)

/-- core.go:437-527 with proof generation: `iter` and the original clauses recorded -/
def iterP (cfg : Min) (fuel : Nat) (ch : Choice) (asm : List Nat) (props : List π) (s : S) : Option (Out × List (List Nat × π)) :=
  match propagate fuel s with
  | none => none
  | some (s, some c) =>
    if ch.resume = false then some (.cont s, [])
    else if s.dl = 0 then some (.unsat s, [])
    else match analyze cfg fuel ch s c with
      | none => none
      | some (l0, out, bt, seen) => some (.cont (learn (cancelUntil { s with seen := seen } bt) l0 out), [])
  | some (s, none) =>
    if ch.restart then some (.cont (cancelUntil s 0), [])
    else
      let s := if ch.reduce then reduceDB ch.del s else s
      match asmLoop s (asm.drop s.dl) with
      | (s, .failed p) => (record props s p).map fun r => (.unsat (analyzeFinal s (neg p)), [r])
      | (s, .next p) => (record props s p).map fun r => (.cont (decideLit s p), [r])
      | (s, .free) =>
        match pickBranch ch s with
        | (s, none) => some (.sat s, [])
        | (s, some p) => some (.cont (decideLit s p), [])

/-- core.go:396-398 with 432-529 -/
def searchP (cfg : Min) (fuel : Nat) (O : Nat → Choice) (asm : List Nat) (props : List π) : Nat → Nat → S → Option (Bool × S × List (List Nat × π))
  | 0, _, _ => none
  | k + 1, n, s =>
    match iterP cfg fuel (O n) asm props s with
    | none => none
    | some (.cont s, r) => (searchP cfg fuel O asm props k (n + 1) s).map fun x => (x.1, x.2.1, r ++ x.2.2)
    | some (.sat s, r) => some (true, s, r)
    | some (.unsat s, r) => some (false, s, r)

/-- proofs.go:86-182 `parse`, the original clauses: `true` if it returns `false` there.  `fls`: the literals in `internalFalse` -/
def parseTrivial : List (List Nat) → List Nat → Bool
  | [], _ => false
  | [] :: _, _ => true
  | [l] :: cs, fls => if l ∈ fls then true else parseTrivial cs (neg l :: fls)
  | (_ :: _ :: _) :: cs, fls => parseTrivial cs fls

/-- unsat_core.go:74-76: the first later unit clause with the complementary literal -/
def findCompl (l : Nat) : List (List Nat × π) → Option π
  | [] => none
  | ([k], q) :: cs => if k = neg l then some q else findCompl l cs
  | _ :: cs => findCompl l cs

/-- unsat_core.go:69-98 `handleTrivialCase`: the two propositions; `none`: panic -/
def trivialCase : List (List Nat × π) → Option (π × π)
  | [] => none
  | ([l], p) :: cs => match findCompl l cs with
    | some q => some (p, q)
    | none => trivialCase cs
  | _ :: cs => trivialCase cs

/-- result of `computeUnsatCore` -/
inductive Core (π : Type)
  | props (ps : List π) | drup | panic
  deriving DecidableEq

/-- unsat_core.go:12-47 `computeUnsatCore`; of several propositions with an empty clause the map keeps the last -/
def unsatCore [DecidableEq π] (rs : List (List Nat × π)) : Core π :=
  match (rs.filter (·.1.isEmpty)).getLast? with
  | some r => .props [r.2]
  | none =>
    if parseTrivial (rs.map (·.1)) [] then
      match trivialCase rs with
      | none => .panic
      | some (p, q) => .props (if p = q then [p] else [p, q])
    else .drup

/-! ## the recording does not change the search -/

theorem iterP_erase {cfg : Min} {fuel : Nat} {ch : Choice} {asm : List Nat} {props : List π} {s : S} {x : Out × List (List Nat × π)}
    (h : iterP cfg fuel ch asm props s = some x) : iter cfg fuel ch asm s = some x.1 := by
  unfold iterP at h
  unfold iter
  split at h
  · cases h
  · rename_i hp; rw [hp]; dsimp only
    split at h
    · rename_i hr; rw [if_pos hr]; cases h; rfl
    · rename_i hr; rw [if_neg hr]
      split at h
      · rename_i hd; rw [if_pos hd]; cases h; rfl
      · rename_i hd; rw [if_neg hd]
        split at h
        · cases h
        · rename_i ha; rw [ha]; cases h; rfl
  · rename_i s1 hp; rw [hp]; dsimp only
    split at h
    · rename_i hr; rw [if_pos hr]; cases h; rfl
    · rename_i hr; rw [if_neg hr]
      dsimp only at h
      split at h
      · rename_i ha; rw [ha]; obtain ⟨r, _, rfl⟩ := Option.map_eq_some_iff.1 h; rfl
      · rename_i ha; rw [ha]; obtain ⟨r, _, rfl⟩ := Option.map_eq_some_iff.1 h; rfl
      · rename_i ha; rw [ha]; dsimp only
        split at h
        · rename_i hb; rw [hb]; cases h; rfl
        · rename_i hb; rw [hb]; cases h; rfl

/-- The verdict and the state are those of the search without recording, so C18 holds for them. -/
theorem searchP_erase {cfg : Min} {fuel : Nat} {O : Nat → Choice} {asm : List Nat} {props : List π} : ∀ {k n : Nat} {s : S} {x : Bool × S × List (List Nat × π)},
    searchP cfg fuel O asm props k n s = some x → searchLoop cfg fuel O asm k n s = some (x.1, x.2.1)
  | 0, _, _, _, h => by cases h
  | k + 1, n, s, x, h => by
    unfold searchP at h
    unfold searchLoop
    split at h
    · cases h
    · rename_i s1 r hi
      rw [iterP_erase hi]
      obtain ⟨y, hy, rfl⟩ := Option.map_eq_some_iff.1 h
      have := searchP_erase hy
      exact this
    · rename_i hi; rw [iterP_erase hi]; cases h; rfl
    · rename_i hi; rw [iterP_erase hi]; cases h; rfl

/-! ## the recorded propositions -/

theorem asmLoop_get {s s' : S} {asm : List Nat} {p : Nat} : ∀ {ps : List Nat}, asm.drop s.dl = ps → (asmLoop s ps = (s', .failed p) ∨ asmLoop s ps = (s', .next p)) → asm[s'.dl]? = some p
  | [], _, h => by rcases h with h | h <;> cases h
  | q :: ps, hd, h => by
    have hg : asm[s.dl]? = some q := by
      have := congrArg (·[0]?) hd
      simpa [List.getElem?_drop] using this
    unfold asmLoop at h
    split at h
    · refine asmLoop_get (s := { s with trailLim := s.trail.length :: s.trailLim }) ?_ h
      show asm.drop (s.trailLim.length + 1) = ps
      have := congrArg (List.drop 1) hd
      rw [List.drop_drop] at this
      simpa [S.dl, Nat.add_comm] using this
    · rcases h with h | h
      · injection h with h1 h2; injection h2 with h2; subst h1; subst h2; exact hg
      · injection h with _ h2; cases h2
    · rcases h with h | h
      · injection h with _ h2; cases h2
      · injection h with h1 h2; injection h2 with h2; subst h1; subst h2; exact hg

theorem iterP_records {cfg : Min} {fuel : Nat} {ch : Choice} {asm : List Nat} {props : List π} {s : S} {x : Out × List (List Nat × π)}
    (h : iterP cfg fuel ch asm props s = some x) : ∀ r ∈ x.2, ∃ (i : Nat) (p : Nat), asm[i]? = some p ∧ props[i]? = some r.2 ∧ r.1 = [p] := by
  have key : ∀ {s1 s2 : S} {p : Nat} {o : Out}, (asmLoop s1 (asm.drop s1.dl) = (s2, .failed p) ∨ asmLoop s1 (asm.drop s1.dl) = (s2, .next p)) →
      (record props s2 p).map (fun r => (o, [r])) = some x → ∀ r ∈ x.2, ∃ (i : Nat) (p : Nat), asm[i]? = some p ∧ props[i]? = some r.2 ∧ r.1 = [p] := by
    intro s1 s2 p o ha hm r hr
    obtain ⟨r', h', rfl⟩ := Option.map_eq_some_iff.1 hm
    obtain ⟨q, hq, rfl⟩ := Option.map_eq_some_iff.1 h'
    rw [List.mem_singleton.1 hr]
    exact ⟨s2.dl, p, asmLoop_get rfl ha, hq, rfl⟩
  unfold iterP at h
  split at h
  · cases h
  · split at h
    · cases h; simp
    · split at h
      · cases h; simp
      · split at h
        · cases h
        · cases h; simp
  · split at h
    · cases h; simp
    · dsimp only at h
      split at h
      · rename_i ha; exact key (.inl ha) h
      · rename_i ha; exact key (.inr ha) h
      · split at h <;> (cases h; simp)

theorem searchP_records {cfg : Min} {fuel : Nat} {O : Nat → Choice} {asm : List Nat} {props : List π} : ∀ {k n : Nat} {s : S} {x : Bool × S × List (List Nat × π)},
    searchP cfg fuel O asm props k n s = some x → ∀ r ∈ x.2.2, ∃ (i : Nat) (p : Nat), asm[i]? = some p ∧ props[i]? = some r.2 ∧ r.1 = [p]
  | 0, _, _, _, h => by cases h
  | k + 1, n, s, x, h => by
    unfold searchP at h
    split at h
    · cases h
    · rename_i hi
      obtain ⟨y, hy, rfl⟩ := Option.map_eq_some_iff.1 h
      intro r hr
      rcases List.mem_append.1 hr with hr | hr
      · exact iterP_records hi r hr
      · exact searchP_records hy r hr
    · rename_i hi; cases h; exact iterP_records hi
    · rename_i hi; cases h; exact iterP_records hi

/-- C19: if the literals of the call are passed in the order of their handles, each recorded clause is the literal of its proposition, and the proposition was passed. -/
theorem C19_records_partial {key : Nat → Nat} {ps : List (Nat × π)} (hs : ps.Pairwise fun a b => key a.1 ≤ key b.1) {cfg : Min} {fuel k n : Nat} {O : Nat → Choice} {s : S}
    {x : Bool × S × List (List Nat × π)} (h : searchP cfg fuel O (initAsm key ps).1 (initAsm key ps).2 k n s = some x) : ∀ r ∈ x.2.2, ∃ p, (p, r.2) ∈ ps ∧ r.1 = [p] := by
  intro r hr
  obtain ⟨i, p, h1, h2, h3⟩ := searchP_records h r hr
  have he : (initAsm key ps).1 = ps.map (·.1) := List.Pairwise.insertionSort_eq (by rw [List.pairwise_map]; exact hs)
  rw [he, List.getElem?_map] at h1
  obtain ⟨a, ha, rfl⟩ := Option.map_eq_some_iff.1 h1
  have h2 : (ps.map (·.2))[i]? = some r.2 := h2
  rw [List.getElem?_map, ha] at h2
  injection h2 with h2
  exact ⟨a.1, by rw [← h2]; exact List.mem_of_getElem? ha, h3⟩

/-! ## the trivial core -/

theorem findCompl_mem {l : Nat} {q : π} : ∀ {cs : List (List Nat × π)}, findCompl l cs = some q → ([neg l], q) ∈ cs
  | [], h => by cases h
  | ([], _) :: cs, h => List.mem_cons_of_mem _ (findCompl_mem (cs := cs) h)
  | (_ :: _ :: _, _) :: cs, h => List.mem_cons_of_mem _ (findCompl_mem (cs := cs) h)
  | ([k], p) :: cs, h => by
    unfold findCompl at h
    split at h
    · rename_i hk; subst hk; injection h with h; subst h; exact List.mem_cons_self
    · exact List.mem_cons_of_mem _ (findCompl_mem h)

theorem trivialCase_mem {p q : π} : ∀ {cs : List (List Nat × π)}, trivialCase cs = some (p, q) → ∃ l, ([l], p) ∈ cs ∧ ([neg l], q) ∈ cs
  | [], h => by cases h
  | ([], _) :: cs, h => by
    obtain ⟨l, h1, h2⟩ := trivialCase_mem (cs := cs) h
    exact ⟨l, List.mem_cons_of_mem _ h1, List.mem_cons_of_mem _ h2⟩
  | (_ :: _ :: _, _) :: cs, h => by
    obtain ⟨l, h1, h2⟩ := trivialCase_mem (cs := cs) h
    exact ⟨l, List.mem_cons_of_mem _ h1, List.mem_cons_of_mem _ h2⟩
  | ([k], r) :: cs, h => by
    unfold trivialCase at h
    split at h
    · rename_i q' hq
      injection h with h; injection h with h1 h2; subst h1; subst h2
      exact ⟨k, List.mem_cons_self, List.mem_cons_of_mem _ (findCompl_mem hq)⟩
    · obtain ⟨l, h1, h2⟩ := trivialCase_mem h
      exact ⟨l, List.mem_cons_of_mem _ h1, List.mem_cons_of_mem _ h2⟩

theorem findCompl_some {l : Nat} {q : π} : ∀ {cs : List (List Nat × π)}, ([neg l], q) ∈ cs → findCompl l cs ≠ none
  | ([], _) :: cs, h => findCompl_some (cs := cs) (by simpa using h)
  | (_ :: _ :: _, _) :: cs, h => findCompl_some (cs := cs) (by simpa using h)
  | ([k], p) :: cs, h => by
    unfold findCompl
    split
    · simp
    · rename_i hk
      rcases List.mem_cons.1 h with h | h
      · exact absurd (by injection h with h _; injection h with h; exact h.symm) hk
      · exact findCompl_some h

/-- a false literal comes from an earlier unit clause -/
theorem parseTrivial_case : ∀ {cs : List (List Nat × π)} {fls : List Nat}, (∀ r ∈ cs, r.1 ≠ []) → parseTrivial (cs.map (·.1)) fls = true →
    trivialCase cs ≠ none ∨ ∃ l ∈ fls, ∃ q, ([l], q) ∈ cs
  | [], _, _, h => by cases h
  | ([], _) :: cs, _, hn, _ => absurd rfl (hn _ List.mem_cons_self)
  | (_ :: _ :: _, _) :: cs, fls, hn, h => by
    rcases parseTrivial_case (cs := cs) (fun r hr => hn r (List.mem_cons_of_mem _ hr)) h with h | ⟨l, h1, q, h2⟩
    · exact .inl h
    · exact .inr ⟨l, h1, q, List.mem_cons_of_mem _ h2⟩
  | ([k], p) :: cs, fls, hn, h => by
    have h : (if k ∈ fls then true else parseTrivial (cs.map (·.1)) (neg k :: fls)) = true := h
    split at h
    · rename_i hk; exact .inr ⟨k, hk, p, List.mem_cons_self⟩
    · unfold trivialCase
      split
      · exact .inl (by simp)
      · rename_i hf
        rcases parseTrivial_case (fun r hr => hn r (List.mem_cons_of_mem _ hr)) h with h | ⟨l, h1, q, h2⟩
        · exact .inl h
        · rcases List.mem_cons.1 h1 with rfl | h1
          · exact absurd hf (findCompl_some h2)
          · exact .inr ⟨l, h1, q, List.mem_cons_of_mem _ h2⟩

/-- `handleTrivialCase` does not panic -/
theorem C19_no_panic [DecidableEq π] (rs : List (List Nat × π)) : unsatCore rs ≠ .panic := by
  unfold unsatCore
  split
  · simp
  · rename_i he
    have hn : ∀ r ∈ rs, r.1 ≠ [] := by
      intro r hr e
      have : r ∈ rs.filter (·.1.isEmpty) := List.mem_filter.2 ⟨hr, by rw [e]; rfl⟩
      rw [List.getLast?_eq_none_iff.1 he] at this
      cases this
    split
    · rename_i hp
      split
      · rename_i ht
        rcases parseTrivial_case hn hp with h | ⟨l, h, _⟩
        · exact absurd ht h
        · cases h
      · simp
    · simp

/-- C19: if each recorded clause follows from its proposition, a core found without the DRUP check consists of recorded propositions and is unsatisfiable. -/
theorem C19_trivial_partial [DecidableEq π] (holds : π → (Nat → Bool) → Prop) {rs : List (List Nat × π)} (hr : ∀ r ∈ rs, ∀ u, holds r.2 u → Sat u r.1) {ps : List π}
    (h : unsatCore rs = .props ps) : (∀ p ∈ ps, p ∈ rs.map (·.2)) ∧ ∀ u, ¬ ∀ p ∈ ps, holds p u := by
  unfold unsatCore at h
  split at h
  · rename_i r hg
    injection h with h; subst h
    obtain ⟨hm, he⟩ := List.mem_filter.1 (List.mem_of_getLast? hg)
    refine ⟨fun p hp => ?_, fun u hu => ?_⟩
    · rw [List.mem_singleton.1 hp]; exact List.mem_map_of_mem hm
    · obtain ⟨l, hl, _⟩ := hr r hm u (hu _ (List.mem_singleton.2 rfl))
      rw [List.isEmpty_iff.1 he] at hl; cases hl
  · split at h
    · split at h
      · cases h
      · rename_i p q ht
        injection h with h
        obtain ⟨l, h1, h2⟩ := trivialCase_mem ht
        have hps : ∀ x, x ∈ ps ↔ x = p ∨ x = q := by
          intro x; rw [← h]; split
          · rename_i e; subst e; simp
          · simp
        refine ⟨fun x hx => ?_, fun u hu => ?_⟩
        · rcases (hps x).1 hx with rfl | rfl
          · exact List.mem_map.2 ⟨_, h1, rfl⟩
          · exact List.mem_map.2 ⟨_, h2, rfl⟩
        · obtain ⟨a, ha, hv⟩ := hr _ h1 u (hu p ((hps p).2 (.inl rfl)))
          obtain ⟨b, hb, hw⟩ := hr _ h2 u (hu q ((hps q).2 (.inr rfl)))
          rw [List.mem_singleton.1 ha] at hv
          rw [List.mem_singleton.1 hb, lv_neg, hv] at hw
          cases hw
    · cases h

/-! ## the core of a call may be satisfiable -/

/-- a solver with the variables 0 and 1 and the clause `¬0` -/
def ops5 : List Op := [.newVar, .newVar, .add [1]]

/-- A call of that solver with two literal propositions: verdict and core.  Proposition `l` is the literal `l`; proposition 1 is the formula on the solver. -/
def coreAfter (ps : List (Nat × Nat)) : Option (Bool × Core Nat) :=
  match W.run 60 {} ops5 with
  | none => none
  | some w => (searchP .deep 60 (fun _ => calm) (initAsm id ps).1 (initAsm id ps).2 60 0 w.s).map fun x => (x.1, unsatCore (([1], 1) :: x.2.2))

/-- C19 is false of the code: `¬x` is on the solver, the call has the literals `y`, `x` in this order.  The core is `{¬x, y}`, which is satisfiable. -/
theorem C19_core_false : coreAfter [(2, 2), (0, 0)] = some (false, .props [1, 2]) ∧ ∃ u : Nat → Bool, ∀ l ∈ [1, 2], lv u l = true := by
  refine ⟨by decide +kernel, fun v => v == 1, by decide⟩

/-- in the other order the core is right -/
example : coreAfter [(0, 0), (2, 2)] = some (false, .props [1, 0]) := by decide +kernel

/-- the hypotheses of `C19_trivial_partial` hold for the records of that call -/
example : unsatCore [([1], 1), ([0], 0)] = .props [1, 0] ∧ ∀ r ∈ ([([1], 1), ([0], 0)] : List (List Nat × Nat)), ∀ u, lv u r.2 = true → Sat u r.1 := by
  refine ⟨by decide, fun r hr u hu => ?_⟩
  simp only [List.mem_cons, List.not_mem_nil, or_false] at hr
  rcases hr with rfl | rfl <;> exact ⟨_, List.mem_singleton.2 rfl, hu⟩

/-- the hypothesis of `C19_records_partial` -/
example : ([(0, 0), (2, 2)] : List (Nat × Nat)).Pairwise fun a b => id a.1 ≤ id b.1 := by decide

end Verif.Sat
