import Verif.Enum.Props
import Verif.Enum.Termination
import Verif.Factory.Tree
import Verif.NormalForm.Tseitin
import Verif.Simpl.Advanced
/-!
# C57: canonical normal forms

Model of /repo/model/enum/normalform.go on top of the model of the enumeration.
-/
namespace Verif.Enum
open Verif Verif.Tree
variable {α : Type} [DecidableEq α]

/-! ### Model -/

/-- normalform.go:54-70: the normal form of the enumerated models -/
def canonForm (cons cnf : Bool) (L : List (List (Lit α))) : Fm α :=
  if L.isEmpty then tConst cnf
  else if cnf then tAnd cons (L.map fun M => tClause (M.map Lit.neg))
  else tOr cons (L.map tMinterm)

/-- normalform.go:35-71 `canonicalEnumeration`; `s` is the solver after `Add` of the formula or its negation (normalform.go:41-46), `V` the content of
`Variables(formula)`.  `none` inside: the state of the enumeration is not a success (normalform.go:50-52). -/
def canonical (cons cnf : Bool) (g : Cfg α) (F k : Nat) (V : List α) (s : St α) : Option (Option (Fm α)) :=
  match run g F k V [] s with
  | none => none
  | some (false, _, _) => some none
  | some (true, L, _) => some (some (canonForm cons cnf L))

/-! ### Specification -/

/-- the solver holds the formula `f`: its models, restricted to `V`, are the models of `f` (C50).  It may know further variables (of the CNF transformation)
and not know some of `V` (those that the transformation dropped). -/
structure Carries (s : St α) (V : List α) (f : Fm α) : Prop where
  known : ∀ h ∈ s.fs, ∀ x ∈ h.vars, x ∈ s.kn
  models : ∀ w, (∃ u, Sat u s.fs ∧ ∀ x ∈ V, u x = w x) ↔ f.eval w = true

/-- `M` decides each variable of `V` as `w` does, and has no other literal -/
def Line (V : List α) (w : α → Bool) (M : List (Lit α)) : Prop := ∀ l, l ∈ M ↔ l.var ∈ V ∧ l.eval w = true

/-- `L` lists the rows of the truth table over `V` in which `P` holds, each just once -/
structure Table (V : List α) (P : (α → Bool) → Prop) (L : List (List (Lit α))) : Prop where
  rows : ∀ M ∈ L, ∃ w, P w ∧ Line V w M
  all : ∀ w, P w → ∃ M ∈ L, Line V w M
  once : L.Pairwise fun M M' => ∃ l ∈ M, l.neg ∈ M'

/-! ### Theorems -/

theorem canonical_table {cons cnf : Bool} {g : Cfg α} (hok : g.Ok) (hw : g.Within) (ht : g.Total) {F k : Nat} {V : List α} (hV : V.Nodup) {s : St α} {f : Fm α}
    (hs : Carries s V f) {o : Option (Fm α)} (h : canonical cons cnf g F k V s = some o) :
    ∃ L, o = some (canonForm cons cnf L) ∧ Table V (fun w => f.eval w = true) L := by
  unfold canonical at h
  split at h
  · cases h
  · rename_i L cnt hr
    have := (run_spec hok hw hV hs.known (by simp) hr).2.2 ht
    exact absurd this.1 (by simp)
  · rename_i L cnt hr
    cases h
    obtain ⟨-, h2, h3⟩ := run_spec hok hw hV hs.known (by simp) hr
    obtain ⟨-, h4⟩ := h3 ht
    refine ⟨L, rfl, fun M hM => ?_, fun w hw' => ?_, h2.diff.imp ?_⟩
    · obtain ⟨u, hu, hr⟩ := h2.restr M hM
      exact ⟨u, (hs.models u).1 ⟨u, hu, fun _ _ => rfl⟩, fun l => by rw [hr l]; simp⟩
    · obtain ⟨u, hu, ha⟩ := (hs.models w).2 hw'
      obtain ⟨M, hM, hm⟩ := h4 u hu
      obtain ⟨u', hu', hr⟩ := h2.restr M hM
      refine ⟨M, hM, fun l => ?_⟩
      rw [hr l]
      simp only [List.not_mem_nil, or_false, and_congr_right_iff]
      intro hl
      have e : u' l.var = w l.var := by
        rw [← ha _ hl]; exact Restr.val hr (hm _ hl)
      unfold Lit.eval; rw [e]
    · rintro M M' ⟨x, -, b, h1, h2⟩
      exact ⟨⟨x, b⟩, h1, by simpa [Lit.neg] using h2⟩

theorem Line.eval {V : List α} {w : α → Bool} {M : List (Lit α)} (h : Line V w M) {f : Fm α} (hf : ∀ x ∈ f.vars, x ∈ V) {v : α → Bool} (hv : ∀ l ∈ M, l.eval v = true) :
    f.eval v = f.eval w := by
  refine Fm.eval_congr f fun x hx => ?_
  have hm : (⟨x, w x⟩ : Lit α) ∈ M := (h _).2 ⟨hf x hx, by simp [Lit.eval]⟩
  have := hv _ hm
  revert this
  simp only [Lit.eval]
  cases w x <;> simp

/-- **C57** the canonical DNF is equivalent to the formula; each of its terms decides every variable of the formula, no two terms agree, and there is one for
each satisfying row of the truth table -/
theorem C57_dnf {cons : Bool} {g : Cfg α} (hok : g.Ok) (hw : g.Within) (ht : g.Total) {F k : Nat} {V : List α} (hV : V.Nodup) {s : St α} {f : Fm α}
    (hf : ∀ x, x ∈ V ↔ x ∈ f.vars) (hs : Carries s V f) {o : Option (Fm α)} (h : canonical cons false g F k V s = some o) :
    ∃ r L, o = some r ∧ (∀ v, r.eval v = f.eval v) ∧ Spec.isDNF r = true ∧ (L ≠ [] → r = tOr cons (L.map tMinterm)) ∧ Table V (fun w => f.eval w = true) L := by
  obtain ⟨L, rfl, hL⟩ := canonical_table hok hw ht hV hs h
  refine ⟨_, L, rfl, fun v => ?_, ?_, fun hne => ?_, hL⟩
  · rw [Bool.eq_iff_iff]
    unfold canonForm
    by_cases hne : L = []
    · subst hne
      simp only [List.isEmpty_nil, if_true, tConst, Bool.false_eq_true, if_false, Fm.eval_fls, false_iff]
      intro hv
      obtain ⟨M, hM, -⟩ := hL.all v hv
      cases hM
    · rw [if_neg (by simpa using hne), if_neg (by simp), eval_tOr, List.any_map, List.any_eq_true]
      simp only [Function.comp_apply, eval_tMinterm, List.all_eq_true]
      constructor
      · rintro ⟨M, hM, hv⟩
        obtain ⟨w, hw1, hw2⟩ := hL.rows M hM
        rw [hw2.eval (fun x hx => (hf x).2 hx) hv]; exact hw1
      · intro hv
        obtain ⟨M, hM, hl⟩ := hL.all v hv
        exact ⟨M, hM, fun l hlM => ((hl l).1 hlM).2⟩
  · unfold canonForm
    split
    · simp [tConst, Spec.isDNF]
    · exact Simpl.dnf_shape L
  · unfold canonForm
    rw [if_neg (by simpa using hne)]; rfl

theorem isCNF_tClause (ls : List (Lit α)) : Spec.isCNF (tClause ls) = true := by
  unfold tClause
  split <;> simp [Spec.isCNF, Spec.isClause, Spec.isLit]

/-- **C57** the canonical CNF is equivalent to the formula; each of its clauses has every variable of the formula, no two clauses have the same phases, and
there is one for each falsifying row of the truth table -/
theorem C57_cnf {cons : Bool} {g : Cfg α} (hok : g.Ok) (hw : g.Within) (ht : g.Total) {F k : Nat} {V : List α} (hV : V.Nodup) {s : St α} {f : Fm α}
    (hf : ∀ x, x ∈ V ↔ x ∈ f.vars) (hs : Carries s V (tNot f)) {o : Option (Fm α)} (h : canonical cons true g F k V s = some o) :
    ∃ r L, o = some r ∧ (∀ v, r.eval v = f.eval v) ∧ Spec.isCNF r = true ∧ (L ≠ [] → r = tAnd cons (L.map fun M => tClause (M.map Lit.neg))) ∧ Table V (fun w => f.eval w = false) L := by
  obtain ⟨L, rfl, hL⟩ := canonical_table hok hw ht hV hs h
  simp only [eval_tNot, Bool.not_eq_true'] at hL
  refine ⟨_, L, rfl, fun v => ?_, ?_, fun hne => ?_, hL⟩
  · rw [← Bool.not_inj_iff, Bool.eq_iff_iff, Bool.not_eq_true', Bool.not_eq_true']
    unfold canonForm
    by_cases hne : L = []
    · subst hne
      simp only [List.isEmpty_nil, if_true, tConst, Fm.eval_tru, Bool.true_eq_false, false_iff]
      intro hv
      obtain ⟨M, hM, -⟩ := hL.all v hv
      cases hM
    · rw [if_neg (by simpa using hne), if_pos rfl, eval_tAnd, List.all_map, List.all_eq_false]
      simp only [Function.comp_apply, eval_tClause, List.any_map, Bool.not_eq_true, List.any_eq_false, Lit.eval_neg, Bool.not_eq_false', Bool.not_eq_true', Bool.not_eq_false]
      constructor
      · rintro ⟨M, hM, hv⟩
        obtain ⟨w, hw1, hw2⟩ := hL.rows M hM
        rw [hw2.eval (fun x hx => (hf x).2 hx) hv]; exact hw1
      · intro hv
        obtain ⟨M, hM, hl⟩ := hL.all v hv
        exact ⟨M, hM, fun l hlM => ((hl l).1 hlM).2⟩
  · unfold canonForm
    split
    · simp [tConst, Spec.isCNF]
    · rw [if_pos rfl]
      refine NF.isCNF_tAnd fun h hh => ?_
      obtain ⟨M, -, rfl⟩ := List.mem_map.1 hh
      exact isCNF_tClause _
  · unfold canonForm
    rw [if_neg (by simpa using hne), if_pos rfl]

/-- **C57** canonical: the table, and so the set of clauses or terms, is determined by the function and the variables alone -/
theorem C57_unique {V V' : List α} (hV : ∀ x, x ∈ V ↔ x ∈ V') {P : (α → Bool) → Prop} {L L' : List (List (Lit α))} (h : Table V P L) (h' : Table V' P L') :
    L.length = L'.length ∧ ∀ M ∈ L, ∃ M' ∈ L', ∀ l, l ∈ M ↔ l ∈ M' := by
  have key : ∀ {V V' : List α} {L L' : List (List (Lit α))}, (∀ x, x ∈ V ↔ x ∈ V') → Table V P L → Table V' P L' → ∀ M ∈ L, ∃ M' ∈ L', ∀ l, l ∈ M ↔ l ∈ M' := by
    intro V V' L L' hV h h' M hM
    obtain ⟨w, hw, hl⟩ := h.rows M hM
    obtain ⟨M', hM', hl'⟩ := h'.all w hw
    exact ⟨M', hM', fun l => by rw [hl l, hl' l, hV]⟩
  have nd : ∀ {V' : List α} {L : List (List (Lit α))}, (∀ x, x ∈ V ↔ x ∈ V') → Table V' P L → (L.map fun M => V.filter fun x => (⟨x, true⟩ : Lit α) ∈ M).Nodup := by
    intro V' L hV h
    unfold List.Nodup
    rw [List.pairwise_map]
    refine h.once.imp_of_mem ?_
    rintro M M' hM hM' ⟨l, hl, hl'⟩ e
    obtain ⟨w, -, a⟩ := h.rows M hM
    obtain ⟨w', -, a'⟩ := h.rows M' hM'
    obtain ⟨l1, l2⟩ := (a l).1 hl
    obtain ⟨-, l3⟩ := (a' l.neg).1 hl'
    have := congrArg (l.var ∈ ·) e
    simp only [List.mem_filter, (hV _).2 l1, true_and, decide_eq_true_eq, eq_iff_iff] at this
    rw [a, a'] at this
    simp only [l1, true_and] at this
    obtain ⟨x, b⟩ := l
    revert this l2 l3
    cases b <;> simp only [Lit.eval, Lit.neg] <;> cases w x <;> cases w' x <;> simp
  refine ⟨?_, key hV h h'⟩
  have hp : (L.map fun M => V.filter fun x => (⟨x, true⟩ : Lit α) ∈ M).Perm (L'.map fun M => V.filter fun x => (⟨x, true⟩ : Lit α) ∈ M) := by
    rw [List.perm_ext_iff_of_nodup (nd (fun _ => Iff.rfl) h) (nd hV h')]
    intro S
    simp only [List.mem_map]
    constructor
    · rintro ⟨M, hM, rfl⟩
      obtain ⟨M', hM', e⟩ := key hV h h' M hM
      exact ⟨M', hM', by simp only [e]⟩
    · rintro ⟨M, hM, rfl⟩
      obtain ⟨M', hM', e⟩ := key (fun x => (hV x).symm) h' h M hM
      exact ⟨M', hM', by simp only [e]⟩
  simpa using hp.length_eq

/-- **C57** it returns for the strategy without splits; the limit of models is larger than the number of rows -/
theorem C57_returns (cons cnf : Bool) {g : Cfg α} (hok : g.Ok) {V : List α} {s : St α} (hm : 2 ^ V.length < g.maxIter 0) : ∃ F k, canonical cons cnf g F k V s ≠ none := by
  obtain ⟨F, k, h⟩ := C27_terminates_nosplit hok (A := []) (s := s) hm
  refine ⟨F, k, ?_⟩
  unfold canonical
  split
  · contradiction
  · simp
  · simp

/-! #### handlers -/

/-- the same without handler -/
def Cfg.free (g : Cfg α) : Cfg α := { g with go := fun _ => true }

theorem iterLoop_free {g : Cfg α} {kn rel all : List α} {max : Nat} (F : Nat) :
    ∀ (found : Nat) (fs : List (Fm α)) (c : Coll α) (n : Nat) {b : Bool} {c' : Coll α} {n' : Nat},
      iterLoop g kn rel all max F found fs c n = some (b, true, c', n') → iterLoop g.free kn rel all max F found fs c n = some (b, true, c', n') := by
  induction F with
  | zero => intro found fs c n b c' n' h; cases h
  | succ F ih =>
    intro found fs c n b c' n' h
    rw [iterLoop] at h ⊢
    show (match g.call n fs with | some (some v) => _ | _ => _) = _
    cases hc : g.call n fs with
    | none => rw [hc] at h; exact h
    | some o =>
      cases o with
      | none => rw [hc] at h; exact h
      | some v =>
        rw [hc] at h
        simp only at h ⊢
        split at h
        · rename_i hm; rw [if_pos hm]; exact h
        · rename_i hm
          rw [if_neg hm]
          split at h
          · rw [if_pos (show g.free.go (n + 1) = true from rfl)]
            split at h
            · rename_i hk; rw [if_pos hk]; exact h
            · rename_i hk; rw [if_neg hk]; exact ih _ _ _ _ h
          · simp at h

/-- without splits a success means that the handler did not interfere -/
theorem run_free {g : Cfg α} (hok : g.Ok) {F k : Nat} {V A : List α} {s : St α} (hm : 2 ^ V.length < g.maxIter 0) {L cnt}
    (h : run g F k V A s = some (true, L, cnt)) : run g.free F k V A s = some (true, L, cnt) := by
  unfold run at h ⊢
  split at h
  · rw [if_pos (show g.free.go 0 = true from rfl)]
    split at h
    · cases h
    · rename_i ok s' c' n' hr
      simp only [Option.some.injEq, Prod.mk.injEq] at h
      obtain ⟨rfl, rfl, rfl⟩ := h
      cases k with
      | zero => cases hr
      | succ k =>
        rw [iterRec] at hr ⊢
        split at hr
        · cases hr
        · simp at hr
        · rename_i c1 n1 hi
          have hi' : iterate g.free F (s.add []) V A (g.free.maxIter 0) (newColl (V.filter (· ∉ s.kn)) (A.filter (· ∉ s.kn))) 1 = some (true, true, c1, n1) := iterLoop_free _ _ _ _ _ hi
          rw [hi']
          simp only [Option.some.injEq, Prod.mk.injEq] at hr ⊢
          obtain ⟨-, -, rfl, -⟩ := hr
          exact ⟨rfl, rfl, rfl⟩
        · rename_i hi
          obtain ⟨vs, h1, h2⟩ := iterLoop_unfinished hok _ hi
          have h3 := found_length h2.diff
          have h4 := Nat.pow_le_pow_right (n := 2) (by omega) (List.length_filter_le (· ∈ (s.add []).kn) V)
          simp only [Nat.zero_add] at h1
          exact absurd (h1.trans (h3.trans h4)) (by omega)
  · simp at h

/-- **C57** any handler that does not cancel inside a call of the solver, without splits: there is no result, or the one without handler -/
theorem C57_handler (cons cnf : Bool) {g : Cfg α} (hok : g.Ok) {F k : Nat} {V : List α} {s : St α} (hm : 2 ^ V.length < g.maxIter 0) {r : Fm α}
    (h : canonical cons cnf g F k V s = some (some r)) : canonical cons cnf g.free F k V s = some (some r) := by
  unfold canonical at h ⊢
  split at h
  · cases h
  · cases h
  · rename_i L cnt hr
    rw [run_free hok hm hr]; exact h

/-- **C57** (negative): a call of the solver that is cancelled counts as unsatisfiable (C27_cancel_false), so that with a handler that cancels just that call
the "CNF" is the constant true and the state a success -/
theorem C57_cancel_false : ∃ (g : Cfg Nat) (s : St Nat), g.Ok ∧ g.Within ∧ (∀ n, g.go n = true) ∧ Carries s [0] (tNot (.lit ⟨0, true⟩)) ∧
    canonical true true g 5 5 [0] s = some (some .tru) := by
  refine ⟨⟨fun _ _ => none, fun _ => true, fun _ => 100, fun _ => 100, fun _ _ _ => [], fun _ _ => []⟩, ⟨[0], [.lit ⟨0, false⟩]⟩,
    ⟨by simp, by simp⟩, ⟨by simp, by simp⟩, by simp, ⟨by simp [Fm.vars], fun w => ?_⟩, by decide +kernel⟩
  simp only [Sat, List.mem_singleton, forall_eq, eval_tNot, Fm.eval_lit, Lit.eval]
  constructor
  · rintro ⟨u, h1, h2⟩; rw [← h2]; simpa using h1
  · intro h; exact ⟨w, by simpa using h, rfl⟩

/-! ### concrete cases -/

/-- `x0 ↔ x1` in the solver with an auxiliary variable 9 (`9 → x0 ∧ x1`, `9 ∨ ¬x0`, `9 ∨ ¬x1`): a solver that carries the formula though it holds another one -/
example : Carries ⟨[0, 1, 9], [.or [.lit ⟨9, false⟩, .lit ⟨0, true⟩], .or [.lit ⟨9, false⟩, .lit ⟨1, true⟩], .or [.lit ⟨9, true⟩, .lit ⟨0, false⟩],
    .or [.lit ⟨9, true⟩, .lit ⟨1, false⟩]]⟩ [0, 1] (.equiv (.lit ⟨0, true⟩) (.lit ⟨1, true⟩) : Fm Nat) := by
  refine ⟨by decide, fun w => ⟨?_, fun h => ⟨fun x => if x = 9 then w 0 else w x, ?_, ?_⟩⟩⟩
  · rintro ⟨u, h, a⟩
    rw [← Fm.eval_congr _ (v := u)]
    · have h1 := h _ (List.mem_cons_self)
      have h2 := h _ (List.mem_cons_of_mem _ List.mem_cons_self)
      have h3 := h _ (List.mem_cons_of_mem _ (List.mem_cons_of_mem _ List.mem_cons_self))
      have h4 := h _ (List.mem_cons_of_mem _ (List.mem_cons_of_mem _ (List.mem_cons_of_mem _ List.mem_cons_self)))
      revert h1 h2 h3 h4
      simp only [Fm.eval, Fm.evalAny, Lit.eval]
      cases u 0 <;> cases u 1 <;> cases u 9 <;> simp
    · intro x hx; exact a x (by simpa [Fm.vars] using hx)
  · revert h
    simp only [Sat, List.forall_mem_cons, Fm.eval, Fm.evalAny, Lit.eval]
    cases h0 : w 0 <;> cases h1 : w 1 <;> simp [h0, h1]
  · intro x hx
    have : x ≠ 9 := by rintro rfl; simp at hx
    simp [this]

/-- the CNF of `x0 ↔ x1` from its table -/
example : canonForm true true ([[⟨0, true⟩, ⟨1, false⟩], [⟨0, false⟩, ⟨1, true⟩]] : List (List (Lit Nat))) =
    .and [.or [.lit ⟨0, false⟩, .lit ⟨1, true⟩], .or [.lit ⟨0, true⟩, .lit ⟨1, false⟩]] := by rfl
example : canonForm true false ([[⟨0, true⟩, ⟨1, true⟩], [⟨0, false⟩, ⟨1, false⟩]] : List (List (Lit Nat))) =
    .or [.and [.lit ⟨0, true⟩, .lit ⟨1, true⟩], .and [.lit ⟨0, false⟩, .lit ⟨1, false⟩]] := by rfl

end Verif.Enum
