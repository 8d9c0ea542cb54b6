import Verif.Drup.Props
import Verif.Sat.Call
import Verif.Factory.Tree
import Mathlib.Data.List.Sort
/-!
# From the DRUP check to the propositions of the unsat core

`/repo/sat/unsat_core.go` in full.

Simplifications
* Variables are the numbers of the DRUP literals instead of names; the names of the solver are pairwise different (C50).
* A formula is its tree.  The literals are sorted before `Or` is called, so equal handles mean equal trees.
* The order of the propositions in the core (`PropComparator`) is not modelled.
-/
namespace Verif.Drup
open Verif.Tree (tOr eval_tOr)
variable {π : Type}

/-! ## model -/

/-- A proposition of the core: the one passed to the solver or the standard proposition made of the clause. -/
inductive Pr (π : Type)
  | given (p : π)
  | std (f : Fm Nat)
  deriving DecidableEq

/-- `slices.Sort` -/
def sortC (b : List Int) : List Int := b.insertionSort (· ≤ ·)

/-- unsat_core.go:49-58 `getFormulaForVector`.  `make([]f.Formula, len(slice))` puts as many zeros in front, and the formula 0 is falsum. -/
def formulaFor (cons : Bool) (b : List Int) : Fm Nat :=
  tOr cons (List.replicate b.length .fls ++ (sortC b).map fun l => .lit ⟨l.natAbs, decide (0 < l)⟩)

/-- unsat_core.go:19-22: the proposition of a recorded clause -/
def propOf (cons : Bool) (r : List Int × Option π) : Pr π :=
  match r.2 with
  | some p => .given p
  | none => .std (formulaFor cons r.1)

/-- unsat_core.go:13-24 `clause2proposition[f]`: the last entry stays; `none`: no entry (a nil proposition) -/
def lookup (cons : Bool) (rs : List (List Int × Option π)) (f : Fm Nat) : Option (Pr π) :=
  ((rs.reverse.find? fun r => formulaFor cons r.1 == f)).map (propOf cons)

/-- unsat_core.go:72-74: the first later unit clause with the complementary literal -/
def findCompl (l : Int) : List (List Int × Option π) → Option (List Int × Option π)
  | [] => none
  | r :: rs =>
    match r.1 with
    | [k] => if l + k = 0 then some r else findCompl l rs
    | _ => findCompl l rs

/-- unsat_core.go:69-98 `handleTrivialCase`; `none`: panic -/
def trivialCore [DecidableEq π] (cons : Bool) : List (List Int × Option π) → Option (List (Pr π))
  | [] => none
  | r :: rs =>
    match r.1 with
    | [l] =>
      match findCompl l rs with
      | some q => some (if propOf cons r = propOf cons q then [propOf cons r] else [propOf cons r, propOf cons q])
      | none => trivialCore cons rs
    | _ => trivialCore cons rs

/-- unsat_core.go:12-47 `computeUnsatCore` with `containsEmptyClause` (60-67).  The clauses are the sorted ones, as `getFormulaForVector` sorts in place.  `none`: panic, nil in the core or out of fuel. -/
def computeUnsatCore [DecidableEq π] (cons : Bool) (hash : List Int → Nat) (fuel : Nat) (rs : List (List Int × Option π)) (trace : List (List Int)) : Option (List (Pr π)) :=
  if rs.any (·.1.isEmpty) then (lookup cons rs .fls).map fun p => [p]
  else
    match drupCompute hash fuel (rs.map fun r => sortC r.1) trace with
    | none => none
    | some .trivial => trivialCore cons rs
    | some (.core cs) => (cs.mapM fun b => lookup cons rs (formulaFor cons b)).map List.eraseDups

/-! ## lemmas -/

theorem sortC_perm (b : List Int) : (sortC b).Perm b := List.perm_insertionSort _ _

theorem sortC_eq {a b : List Int} (h : a.Perm b) : sortC a = sortC b :=
  List.Perm.eq_of_pairwise (fun x y _ _ h1 h2 => Int.le_antisymm h1 h2) (List.pairwise_insertionSort _ _) (List.pairwise_insertionSort _ _) ((sortC_perm a).trans (h.trans (sortC_perm b).symm))

theorem formulaFor_eq (cons : Bool) {a b : List Int} (h : a.Perm b) : formulaFor cons a = formulaFor cons b := by
  unfold formulaFor
  rw [sortC_eq h, h.length_eq]

theorem formulaFor_eval (cons : Bool) (v : Nat → Bool) (b : List Int) : (formulaFor cons b).eval v = true ↔ Tr v b := by
  unfold formulaFor
  rw [eval_tOr, List.any_append, Bool.or_eq_true, List.any_eq_true, List.any_eq_true]
  constructor
  · rintro (⟨f, hf, he⟩ | ⟨f, hf, he⟩)
    · rw [List.eq_of_mem_replicate hf] at he; simp at he
    · obtain ⟨l, hl, rfl⟩ := List.mem_map.1 hf
      refine ⟨l, (sortC_perm b).mem_iff.1 hl, ?_⟩
      rw [Fm.eval_lit] at he
      unfold val
      simp only [Lit.eval, decide_eq_true_eq] at he
      exact he
  · rintro ⟨l, hl, he⟩
    refine .inr ⟨_, List.mem_map_of_mem ((sortC_perm b).mem_iff.2 hl), ?_⟩
    rw [Fm.eval_lit]
    unfold val at he
    simp only [Lit.eval, decide_eq_true_eq]
    exact he

theorem lookup_some {cons : Bool} {rs : List (List Int × Option π)} {f : Fm Nat} {p : Pr π} (h : lookup cons rs f = some p) : ∃ r ∈ rs, formulaFor cons r.1 = f ∧ propOf cons r = p := by
  obtain ⟨r, h1, h2⟩ := Option.map_eq_some_iff.1 h
  exact ⟨r, List.mem_reverse.1 (List.mem_of_find?_eq_some h1), by simpa using List.find?_some h1, h2⟩

theorem lookup_none {cons : Bool} {rs : List (List Int × Option π)} {r : List Int × Option π} (hr : r ∈ rs) : lookup cons rs (formulaFor cons r.1) ≠ none := by
  intro h
  have := Option.map_eq_none_iff.1 h
  rw [List.find?_eq_none] at this
  simpa using this r (List.mem_reverse.2 hr)

theorem findCompl_some {l : Int} {q : List Int × Option π} : ∀ {rs : List (List Int × Option π)}, findCompl l rs = some q → q ∈ rs ∧ ∃ k, q.1 = [k] ∧ l + k = 0
  | r :: rs, h => by
    unfold findCompl at h
    split at h
    · rename_i k hk
      split at h
      · rename_i hz
        injection h with h; subst h
        exact ⟨List.mem_cons_self, k, hk, hz⟩
      · obtain ⟨h1, h2⟩ := findCompl_some (rs := rs) h
        exact ⟨List.mem_cons_of_mem _ h1, h2⟩
    · obtain ⟨h1, h2⟩ := findCompl_some (rs := rs) h
      exact ⟨List.mem_cons_of_mem _ h1, h2⟩

theorem findCompl_none {l : Int} : ∀ {rs : List (List Int × Option π)}, findCompl l rs = none → ∀ q ∈ rs, ∀ k, q.1 = [k] → l + k ≠ 0
  | r :: rs, h, q, hq, k, hk => by
    unfold findCompl at h
    rcases List.mem_cons.1 hq with rfl | hq
    · rw [hk] at h
      dsimp only at h
      intro hz
      rw [if_pos hz] at h
      cases h
    · split at h
      · split at h
        · cases h
        · exact findCompl_none h q hq k hk
      · exact findCompl_none h q hq k hk

theorem trivialCore_some [DecidableEq π] {cons : Bool} {ps : List (Pr π)} : ∀ {rs : List (List Int × Option π)}, trivialCore cons rs = some ps →
    ∃ r ∈ rs, ∃ q ∈ rs, ∃ l k, r.1 = [l] ∧ q.1 = [k] ∧ l + k = 0 ∧ ∀ p, p ∈ ps ↔ p = propOf cons r ∨ p = propOf cons q
  | r :: rs, h => by
    have hrec : trivialCore cons rs = some ps → ∃ r' ∈ r :: rs, ∃ q ∈ r :: rs, ∃ l k, r'.1 = [l] ∧ q.1 = [k] ∧ l + k = 0 ∧ ∀ p, p ∈ ps ↔ p = propOf cons r' ∨ p = propOf cons q := fun h => by
      obtain ⟨r', h1, q, h2, h3⟩ := trivialCore_some h
      exact ⟨r', List.mem_cons_of_mem _ h1, q, List.mem_cons_of_mem _ h2, h3⟩
    unfold trivialCore at h
    split at h
    · rename_i l hl
      split at h
      · rename_i q hq
        injection h with h
        obtain ⟨h1, k, h2, h3⟩ := findCompl_some hq
        refine ⟨r, List.mem_cons_self, q, List.mem_cons_of_mem _ h1, l, k, hl, h2, h3, fun p => ?_⟩
        rw [← h]
        split
        · rename_i e; rw [← e]; simp
        · simp
      · exact hrec h
    · exact hrec h

theorem trivialCore_none [DecidableEq π] {cons : Bool} : ∀ {rs : List (List Int × Option π)}, trivialCore cons rs = none → ∀ r ∈ rs, ∀ q ∈ rs, ∀ l k, r.1 = [l] → q.1 = [k] → l ≠ 0 → l + k ≠ 0
  | a :: rs, h, r, hr, q, hq, l, k, e1, e2, hz => by
    have hn : trivialCore cons rs = none ∧ ∀ x, a.1 = [x] → findCompl x rs = none := by
      unfold trivialCore at h
      split at h
      · rename_i x hx
        split at h
        · cases h
        · rename_i hf
          refine ⟨h, fun y hy => ?_⟩
          rw [hx] at hy; injection hy with hy; rw [← hy]; exact hf
      · rename_i hx
        exact ⟨h, fun y hy => absurd hy (hx y)⟩
    rcases List.mem_cons.1 hr with hr | hr
    · rcases List.mem_cons.1 hq with hq | hq
      · rw [hr, ← hq, e2] at e1; injection e1 with e1; omega
      · exact findCompl_none (hn.2 l (hr ▸ e1)) q hq k e2
    · rcases List.mem_cons.1 hq with hq | hq
      · have := findCompl_none (hn.2 k (hq ▸ e2)) r hr l e1; omega
      · exact trivialCore_none hn.1 r hr q hq l k e1 e2 hz

theorem mapM_some_mem {α β : Type} {f : α → Option β} : ∀ {xs : List α} {ys : List β}, xs.mapM f = some ys → (∀ x ∈ xs, ∃ y ∈ ys, f x = some y) ∧ ∀ y ∈ ys, ∃ x ∈ xs, f x = some y
  | [], ys, h => by
    rw [List.mapM_nil] at h; injection h with h; subst h
    exact ⟨fun x hx => absurd hx List.not_mem_nil, fun y hy => absurd hy List.not_mem_nil⟩
  | x :: xs, ys, h => by
    rw [List.mapM_cons] at h
    obtain ⟨y, h1, h⟩ := Option.bind_eq_some_iff.1 h
    obtain ⟨zs, h2, h⟩ := Option.bind_eq_some_iff.1 h
    injection h with h; subst h
    obtain ⟨g1, g2⟩ := mapM_some_mem h2
    refine ⟨fun a ha => ?_, fun b hb => ?_⟩
    · rcases List.mem_cons.1 ha with rfl | ha
      · exact ⟨y, List.mem_cons_self, h1⟩
      · obtain ⟨b, k1, k2⟩ := g1 a ha; exact ⟨b, List.mem_cons_of_mem _ k1, k2⟩
    · rcases List.mem_cons.1 hb with rfl | hb
      · exact ⟨x, List.mem_cons_self, h1⟩
      · obtain ⟨a, k1, k2⟩ := g2 b hb; exact ⟨a, List.mem_cons_of_mem _ k1, k2⟩

theorem mapM_total {α β : Type} {f : α → Option β} : ∀ {xs : List α}, (∀ x ∈ xs, f x ≠ none) → xs.mapM f ≠ none
  | [], _, h => by rw [List.mapM_nil] at h; cases h
  | x :: xs, hf, h => by
    rw [List.mapM_cons] at h
    cases hx : f x with
    | none => exact hf x List.mem_cons_self hx
    | some y =>
      cases hxs : xs.mapM f with
      | none => exact mapM_total (fun a ha => hf a (List.mem_cons_of_mem _ ha)) hxs
      | some ys => rw [hx, hxs] at h; cases h

/-! ## the unsat core -/

section
variable [DecidableEq π] {cons : Bool} {hash : List Int → Nat} {fuel : Nat} {rs : List (List Int × Option π)} {trace : List (List Int)}

/-- the literals of the recorded clauses and of the trace are not 0 -/
def Nz (rs : List (List Int × Option π)) (trace : List (List Int)) : Prop := (∀ r ∈ rs, ∀ l ∈ r.1, l ≠ 0) ∧ ∀ ln ∈ trace, ∀ l ∈ ln.tail, l ≠ 0

omit [DecidableEq π] in
theorem Nz.sorted (hz : Nz rs trace) : ∀ b ∈ rs.map fun r => sortC r.1, ∀ l ∈ b, l ≠ 0 := by
  intro b hb l hl
  obtain ⟨r, hr, rfl⟩ := List.mem_map.1 hb
  exact hz.1 r hr l ((sortC_perm r.1).mem_iff.1 hl)

/-- **C19**: whatever the trace is, a core consists of propositions of recorded clauses, and it is unsatisfiable.  The truth of a proposition is any relation `holds`;
the recorded clauses have to follow from their propositions for a choice of the auxiliary variables that is the same for all clauses (`hr`). -/
theorem C19_core {U : Type} (holds : Pr π → U → Prop) (hz : Nz rs trace) (hr : ∀ u, ∃ v, ∀ r ∈ rs, holds (propOf cons r) u → Tr v r.1) {ps : List (Pr π)}
    (h : computeUnsatCore cons hash fuel rs trace = some ps) : (∀ p ∈ ps, ∃ r ∈ rs, propOf cons r = p) ∧ ∀ u, ¬ ∀ p ∈ ps, holds p u := by
  unfold computeUnsatCore at h
  split at h
  · obtain ⟨p, hp, rfl⟩ := Option.map_eq_some_iff.1 h
    obtain ⟨r, h1, h2, h3⟩ := lookup_some hp
    refine ⟨fun q hq => ?_, fun u hu => ?_⟩
    · rw [List.mem_singleton.1 hq]; exact ⟨r, h1, h3⟩
    · obtain ⟨v, hv⟩ := hr u
      have ht := (formulaFor_eval cons v r.1).2 (hv r h1 (hu _ (by rw [h3]; exact List.mem_singleton.2 rfl)))
      rw [h2] at ht
      simp at ht
  · split at h
    · cases h
    · obtain ⟨r, h1, q, h2, l, k, e1, e2, e3, hm⟩ := trivialCore_some h
      refine ⟨fun p hp => ?_, fun u hu => ?_⟩
      · rcases (hm p).1 hp with rfl | rfl
        · exact ⟨r, h1, rfl⟩
        · exact ⟨q, h2, rfl⟩
      · obtain ⟨v, hv⟩ := hr u
        obtain ⟨a, ha, hva⟩ := hv r h1 (hu _ ((hm _).2 (.inl rfl)))
        obtain ⟨b, hb, hvb⟩ := hv q h2 (hu _ ((hm _).2 (.inr rfl)))
        rw [e1] at ha; rw [e2] at hb
        rw [List.mem_singleton.1 ha] at hva
        rw [List.mem_singleton.1 hb] at hvb
        have hl : l ≠ 0 := hz.1 r h1 l (by rw [e1]; simp)
        have : k = -l := by omega
        rw [this, val_neg v hl, hva] at hvb
        cases hvb
    · rename_i cs hd
      obtain ⟨qs, hq, rfl⟩ := Option.map_eq_some_iff.1 h
      obtain ⟨_, hun⟩ := C19_drup hz.sorted hz.2 hd
      obtain ⟨g1, g2⟩ := mapM_some_mem hq
      refine ⟨fun p hp => ?_, fun u hu => ?_⟩
      · obtain ⟨b, _, hb⟩ := g2 p (List.mem_eraseDups.1 hp)
        obtain ⟨r, k1, _, k3⟩ := lookup_some hb
        exact ⟨r, k1, k3⟩
      · obtain ⟨v, hv⟩ := hr u
        obtain ⟨b, hb, hf⟩ := hun v
        obtain ⟨p, hp, hl⟩ := g1 b hb
        obtain ⟨r, k1, k2, k3⟩ := lookup_some hl
        have ht := (formulaFor_eval cons v r.1).2 (hv r k1 (by rw [k3]; exact hu p (List.mem_eraseDups.2 hp)))
        rw [k2] at ht
        obtain ⟨l, hl, hvl⟩ := (formulaFor_eval cons v b).1 ht
        rw [hf l hl] at hvl
        cases hvl

/-- C19: beyond the DRUP check nothing fails: there is always a proposition for a clause of the core, and `handleTrivialCase` does not panic. -/
theorem C19_core_total (hz : Nz rs trace) (hd : drupCompute hash fuel (rs.map fun r => sortC r.1) trace ≠ none) : computeUnsatCore cons hash fuel rs trace ≠ none := by
  unfold computeUnsatCore
  split
  · rename_i he
    obtain ⟨r, hr, e⟩ := List.any_eq_true.1 he
    have e0 : r.1 = [] := List.isEmpty_iff.1 e
    have hf : formulaFor cons r.1 = .fls := by rw [e0]; rfl
    intro h
    have := Option.map_eq_none_iff.1 h
    rw [← hf] at this
    exact lookup_none hr this
  · rename_i he
    split
    · rename_i h; exact absurd h hd
    · rename_i h
      intro hn
      have single : ∀ {b : List Int} {l : Int}, sortC b = [l] → b = [l] := fun {b l} e => List.perm_singleton.1 ((sortC_perm b).symm.trans (by rw [e]))
      rcases C19_drup_trivial hz.sorted h with h0 | ⟨l, h1, h2⟩
      · obtain ⟨r, hr, e⟩ := List.mem_map.1 h0
        refine he (List.any_eq_true.2 ⟨r, hr, ?_⟩)
        have := (sortC_perm r.1)
        rw [e] at this
        exact List.isEmpty_iff.2 this.nil_eq.symm
      · obtain ⟨r, hr, e1⟩ := List.mem_map.1 h1
        obtain ⟨q, hq, e2⟩ := List.mem_map.1 h2
        have e1 := single e1
        exact trivialCore_none hn r hr q hq l (-l) e1 (single e2) (hz.1 r hr l (by rw [e1]; simp)) (by omega)
    · rename_i cs h
      intro hn
      have hn := Option.map_eq_none_iff.1 hn
      refine mapM_total (fun b hb => ?_) hn
      obtain ⟨o, ho, hp⟩ := (C19_drup hz.sorted hz.2 h).1 b hb
      obtain ⟨r, hr, rfl⟩ := List.mem_map.1 ho
      rw [formulaFor_eq cons (hp.trans (sortC_perm r.1))]
      exact lookup_none hr

end

/-- the records of four clauses of three propositions, and of one clause without proposition -/
def exRec : List (List Int × Option Nat) := [([2, 1], some 0), ([-2, 1], some 0), ([3, -1], some 1), ([-3, -1], none), ([4, 5], some 2)]

/-- The hypotheses of `C19_core`: proposition 0 is the variable 1 ∧ true, proposition 1 is `1 → 3`, proposition 2 is `4`. -/
example : computeUnsatCore false (fun b => b.length) 40 exRec [[1, 1]] = some [.given 0, .given 1, .std (.or [.lit ⟨3, false⟩, .lit ⟨1, false⟩])] ∧ Nz exRec [[1, 1]] := by
  unfold Nz
  decide +kernel

/-- truth of the propositions of the example -/
def exHolds : Pr Nat → (Nat → Bool) → Prop
  | .given 0, u => u 1 = true
  | .given 1, u => u 1 = true → u 3 = true
  | .given _, u => u 4 = true
  | .std f, u => f.eval u = true

example : ∀ u, ∃ v, ∀ r ∈ exRec, exHolds (propOf false r) u → Tr v r.1 := by
  intro u
  refine ⟨u, fun r hr h => ?_⟩
  simp only [exRec, List.mem_cons, List.not_mem_nil, or_false] at hr
  rcases hr with rfl | rfl | rfl | rfl | rfl
  · exact ⟨1, by simp, by simpa [val, exHolds, propOf] using h⟩
  · exact ⟨1, by simp, by simpa [val, exHolds, propOf] using h⟩
  · cases h1 : u 1
    · exact ⟨-1, by simp, by simp [val, h1]⟩
    · exact ⟨3, by simp, by simpa [val] using h h1⟩
  · exact (formulaFor_eval false u _).1 h
  · exact ⟨4, by simp, by simpa [val, exHolds, propOf] using h⟩

/-! ## the core of a call -/

/-- sat/core.go:258-259, 311-312: the DRUP literal of a solver literal -/
def drupLit (l : Nat) : Int := if l % 2 = 0 then (l / 2 + 1 : Nat) else -((l / 2 + 1 : Nat) : Int)

theorem drupLit_ne (l : Nat) : drupLit l ≠ 0 := by
  unfold drupLit; split <;> omega

/-- call.go:233-245, core.go:501-515: the records of the formulas on the solver and of the literals of the call -/
def callRecords (rs : List (List Int × Option π)) (x : List (List Nat × π)) : List (List Int × Option π) := rs ++ x.map fun r => (r.1.map drupLit, some r.2)

/-- C19: an unsat core after a call.  If the literals of the call are passed in the order of their handles, then for every run of the search, every trace and every hash function, a core consists of propositions
of formulas on the solver and of the call, and is unsatisfiable.  In other orders this is false (`C19_core_false`). -/
theorem C19_call_partial [DecidableEq π] {U : Type} (holds : Pr π → U → Prop) {cons : Bool} {hash : List Int → Nat} {fuel fuel' k n : Nat} {rs : List (List Int × Option π)} {trace : List (List Int)}
    {key : Nat → Nat} {as : List (Nat × π)} {cfg : Sat.Min} {O : Nat → Sat.Choice} {s : Sat.S} {x : Bool × Sat.S × List (List Nat × π)} {ps : List (Pr π)} (hz : Nz rs trace)
    (hr : ∀ u, ∃ v, (∀ r ∈ rs, holds (propOf cons r) u → Tr v r.1) ∧ ∀ a ∈ as, holds (.given a.2) u → val v (drupLit a.1) = true)
    (hs : as.Pairwise fun a b => key a.1 ≤ key b.1)
    (hx : Sat.searchP cfg fuel' O (Sat.initAsm key as).1 (Sat.initAsm key as).2 k n s = some x)
    (h : computeUnsatCore cons hash fuel (callRecords rs x.2.2) trace = some ps) :
    (∀ p ∈ ps, (∃ r ∈ rs, propOf cons r = p) ∨ ∃ a ∈ as, p = .given a.2) ∧ ∀ u, ¬ ∀ p ∈ ps, holds p u := by
  have hrec := Sat.C19_records_partial hs hx
  have hz' : Nz (callRecords rs x.2.2) trace := by
    refine ⟨fun r hr l hl => ?_, hz.2⟩
    rcases List.mem_append.1 hr with hr | hr
    · exact hz.1 r hr l hl
    · obtain ⟨y, _, rfl⟩ := List.mem_map.1 hr
      obtain ⟨a, _, rfl⟩ := List.mem_map.1 hl
      exact drupLit_ne a
  obtain ⟨g1, g2⟩ := C19_core holds hz' (fun u => by
    obtain ⟨v, h1, h2⟩ := hr u
    refine ⟨v, fun r hr hh => ?_⟩
    rcases List.mem_append.1 hr with hr | hr
    · exact h1 r hr hh
    · obtain ⟨y, hy, rfl⟩ := List.mem_map.1 hr
      obtain ⟨p, k1, k2⟩ := hrec y hy
      exact ⟨drupLit p, by show drupLit p ∈ y.1.map drupLit; rw [k2]; simp, h2 _ k1 hh⟩) h
  refine ⟨fun p hp => ?_, g2⟩
  obtain ⟨r, hr, rfl⟩ := g1 p hp
  rcases List.mem_append.1 hr with hr | hr
  · exact .inl ⟨r, hr, rfl⟩
  · obtain ⟨y, hy, rfl⟩ := List.mem_map.1 hr
    obtain ⟨p, k1, _⟩ := hrec y hy
    exact .inr ⟨_, k1, rfl⟩

/-- the solver with the clause `¬0` and a call with the literals 0 and 1 in this order: the core has the clause on the solver and the first literal -/
example : ((Sat.W.run 60 {} Sat.ops5).bind fun w => (Sat.searchP .deep 60 (fun _ => Sat.calm) (Sat.initAsm id [(0, 0), (2, 2)]).1 (Sat.initAsm id [(0, 0), (2, 2)]).2 60 0 w.s).bind fun x =>
    computeUnsatCore false (fun b => b.length) 40 (callRecords [([-1], some 1)] x.2.2) []) = some [.given 1, .given 0] := by decide +kernel

end Verif.Drup
