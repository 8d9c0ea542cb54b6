import Verif.Simpl.FactorOut
import Verif.NormalForm.Props
/-
C36: the simplifiers which do not need a solver, and backbone propagation.
-/
namespace Verif.Simpl
open Verif Verif.Tree
set_option linter.unusedSectionVars false
variable {α : Type} [DecidableEq α]

/-! ## Distribute and FactorOut -/

/-- C36: `Distribute` returns an equivalent formula, in whatever order the sets are enumerated -/
theorem C36_distribute (cons : Bool) {ord : Fm α → Nat → List (Fm α) → List (Fm α)} (ho : ∀ f i l, (ord f i l).Perm l) (f : Fm α) :
    Fm.Equivalent (distribute cons ord f) f := fun v => distribute_eval ho v f

/-- `(a | b) & (a | c) & d` becomes `d & (a | b & c)` -/
example : distribute false (fun _ _ l => l)
      (.and [.or [.lit ⟨0, true⟩, .lit ⟨1, true⟩], .or [.lit ⟨0, true⟩, .lit ⟨2, true⟩], .lit ⟨3, true⟩] : Fm Nat) =
    .and [.or [.lit ⟨0, true⟩, .and [.lit ⟨1, true⟩, .lit ⟨2, true⟩]], .lit ⟨3, true⟩] := by decide +kernel

/-- C36: for every formula a factory can build and every rating, `FactorOut` terminates with an equivalent formula, which is again of the shape the factory
builds and has no more leaves than the input -/
theorem C36_factorOut (cons : Bool) (less : Fm α → Fm α → Bool) {f : Fm α} (hf : Flat f) {fuel : Nat} (hn : leaves f < fuel) :
    ∃ g, factorOut cons less fuel f = some g ∧ Fm.Equivalent g f ∧ Flat g ∧ leaves g ≤ leaves f := by
  obtain ⟨g, h1, h2⟩ := factorOut_spec cons less fuel f hf hn
  refine ⟨g, h1, h2.eval, h2.flat, ?_⟩
  rcases h2.less with e | e
  · rw [e]; exact Nat.le_refl _
  · omega

/-- `a & b & c | a & d` becomes `a & (b & c | d)` -/
example : factorOut false (fun _ _ => false) 20
      (.or [.and [.lit ⟨0, true⟩, .lit ⟨1, true⟩, .lit ⟨2, true⟩], .and [.lit ⟨0, true⟩, .lit ⟨3, true⟩]] : Fm Nat) =
    some (.and [.lit ⟨0, true⟩, .or [.and [.lit ⟨1, true⟩, .lit ⟨2, true⟩], .lit ⟨3, true⟩]]) := by decide +kernel
/-- a formula with nested operators of the shape assumed -/
example : Flat (.or [.and [.lit ⟨0, true⟩, .or [.lit ⟨1, true⟩, .lit ⟨2, true⟩]], .not (.and [.lit ⟨0, true⟩, .lit ⟨3, true⟩])] : Fm Nat) := by
  refine .or (by simp) ?_ (by simp) (by simp)
  simp only [List.mem_cons, List.not_mem_nil, or_false, forall_eq_or_imp, forall_eq]
  refine ⟨.and (by simp) ?_ (by simp) (by simp), .not (.and (by simp) ?_ (by simp) (by simp)) rfl⟩
  · simp only [List.mem_cons, List.not_mem_nil, or_false, forall_eq_or_imp, forall_eq]
    refine ⟨.lit _, .or (by simp) ?_ (by simp) (by simp)⟩
    simp only [List.mem_cons, List.not_mem_nil, or_false, forall_eq_or_imp, forall_eq]
    exact ⟨.lit _, .lit _⟩
  · simp only [List.mem_cons, List.not_mem_nil, or_false, forall_eq_or_imp, forall_eq]
    exact ⟨.lit _, .lit _⟩

/-! ## MinimizeNegations -/

theorem smallest_mem {len : Fm α → Nat} {top : Bool} : ∀ (fs : List (Fm α)) (f : Fm α), smallest len top f fs ∈ f :: fs
  | [], f => by simp [smallest]
  | g :: gs, f => by
    unfold smallest
    rw [List.foldl_cons]
    have := smallest_mem (len := len) (top := top) gs (if formattedLength len top g < formattedLength len top f then g else f)
    unfold smallest at this
    rcases List.mem_cons.1 this with h | h
    · rw [h]; split <;> simp
    · exact List.mem_cons_of_mem _ (List.mem_cons_of_mem _ h)
/-- the chosen formula is as short as any of the candidates -/
theorem smallest_min {len : Fm α → Nat} {top : Bool} : ∀ (fs : List (Fm α)) (f : Fm α), ∀ g ∈ f :: fs,
    formattedLength len top (smallest len top f fs) ≤ formattedLength len top g
  | [], f, g, hg => by simp at hg; subst hg; simp [smallest]
  | h :: hs, f, g, hg => by
    have hrec : smallest len top f (h :: hs) = smallest len top (if formattedLength len top h < formattedLength len top f then h else f) hs := rfl
    rw [hrec]
    have key := smallest_min (len := len) (top := top) hs (if formattedLength len top h < formattedLength len top f then h else f)
    have h0 := key _ List.mem_cons_self
    rcases List.mem_cons.1 hg with rfl | hg
    · refine Nat.le_trans h0 ?_
      split <;> omega
    rcases List.mem_cons.1 hg with rfl | hg
    · refine Nat.le_trans h0 ?_
      split <;> omega
    · exact key g (List.mem_cons_of_mem _ hg)

/-- positive and negative results are right for `f` -/
def NegOk (f : Fm α) (r : Fm α × Fm α) : Prop := ∀ v, r.1.eval v = f.eval v ∧ r.2.eval v = !f.eval v

theorem combineNeg_spec {cons : Bool} {len : Fm α → Nat} {d top : Bool} {f : Fm α} {fs : List (Fm α)} (hf : opsOf d f = some fs) {rs : List (Fm α × Fm α)}
    (h : List.Forall₂ NegOk fs rs) : NegOk f (combineNeg cons len d top rs) := by
  intro v
  have hall : (∀ r ∈ rs, r.1.eval v = d) ↔ f.eval v = d := by
    rw [opsOf_iff hf]
    clear hf
    induction h with
    | nil => simp
    | cons h1 _ ih => rw [List.forall_mem_cons, List.forall_mem_cons, ih, (h1 v).1]
  have hdual : ∀ r ∈ rs, (r.2.eval v = d ↔ ¬ r.1.eval v = d) := by
    clear hf hall
    intro r hr
    induction h with
    | nil => simp at hr
    | cons h1 _ ih =>
      rcases List.mem_cons.1 hr with rfl | hr
      · rw [(h1 v).1, (h1 v).2]; cases Fm.eval v _ <;> cases d <;> simp
      · exact ih hr
  have hpos : (findSmallestPositive cons len d top rs).eval v = f.eval v := by
    unfold findSmallestPositive
    dsimp only
    refine bool_eq_of_iff (d := d) ?_
    rw [← hall]
    have := smallest_mem (len := len) (top := top) [nary cons d
      [nary cons d ((rs.filter fun r => decide (formattedLength len false r.1 < formattedLength len false r.2)).map (·.1)),
        tNot (nary cons (!d) ((rs.filter fun r => !decide (formattedLength len false r.1 < formattedLength len false r.2)).map (·.2)))]]
      (nary cons d (rs.map (·.1)))
    rcases List.mem_cons.1 this with e | e
    · rw [e, nary_iff]; simp
    · rw [List.mem_singleton.1 e, nary_iff]
      simp only [List.mem_cons, List.not_mem_nil, or_false, forall_eq_or_imp, forall_eq, nary_iff, eval_tNot]
      have hn : ((!(nary cons (!d) ((rs.filter fun r => !decide (formattedLength len false r.1 < formattedLength len false r.2)).map (·.2))).eval v) = d) ↔
          ¬ ((nary cons (!d) ((rs.filter fun r => !decide (formattedLength len false r.1 < formattedLength len false r.2)).map (·.2))).eval v = d) := by
        cases (nary cons (!d) ((rs.filter fun r => !decide (formattedLength len false r.1 < formattedLength len false r.2)).map (·.2))).eval v <;> cases d <;> simp
      rw [hn, nary_dual]
      simp only [List.mem_map, List.mem_filter, forall_exists_index, and_imp, not_exists, not_and]
      constructor
      · rintro ⟨h1, h2⟩ r hr
        by_cases hl : formattedLength len false r.1 < formattedLength len false r.2
        · exact h1 _ r hr (by simpa using hl) rfl
        · by_contra hc
          exact h2 _ r hr (by simpa using hl) rfl ((hdual r hr).2 hc)
      · intro h1
        refine ⟨fun g r hr _ e => e ▸ h1 r hr, fun g r hr _ e he => ?_⟩
        rw [← e] at he
        exact (hdual r hr).1 he (h1 r hr)
  refine ⟨hpos, ?_⟩
  show (findSmallestNegative cons len d top rs (findSmallestPositive cons len d top rs)).eval v = !f.eval v
  unfold findSmallestNegative
  have := smallest_mem (len := len) (top := top) [nary cons (!d) (rs.map (·.2))] (tNot (findSmallestPositive cons len d top rs))
  rcases List.mem_cons.1 this with e | e
  · rw [e, eval_tNot, hpos]
  · rw [List.mem_singleton.1 e]
    have h1 : (nary cons (!d) (rs.map (·.2))).eval v = d ↔ ¬ f.eval v = d := by
      rw [nary_dual, ← hall]
      simp only [List.mem_map, exists_exists_and_eq_and, not_forall]
      constructor
      · rintro ⟨r, hr, he⟩; exact ⟨r, hr, (hdual r hr).1 he⟩
      · rintro ⟨r, hr, he⟩; exact ⟨r, hr, (hdual r hr).2 he⟩
    cases hn : (nary cons (!d) (rs.map (·.2))).eval v <;> cases hf : f.eval v <;> cases d <;> simp_all

theorem negationMinimize_spec {cons : Bool} {len : Fm α → Nat} : ∀ (f : Fm α) (top : Bool), NF.core f = true →
    ∃ r, negationMinimize cons len top f = some r ∧ NegOk f r
  | .lit l, top, _ => ⟨_, by rw [negationMinimize], fun v => by simp⟩
  | .and fs, top, h => by
    rw [NF.core_and, Bool.and_eq_true, List.all_eq_true] at h
    have ih : ∀ f ∈ fs, ∃ r, negationMinimize cons len false f = some r ∧ NegOk f r := fun f hf => negationMinimize_spec f false (h.2 f hf)
    obtain ⟨rs, h1, h2⟩ := negL fs ih
    exact ⟨_, by rw [negationMinimize, h1]; rfl, combineNeg_spec (d := true) rfl h2⟩
  | .or fs, top, h => by
    rw [NF.core_or, Bool.and_eq_true, List.all_eq_true] at h
    have ih : ∀ f ∈ fs, ∃ r, negationMinimize cons len false f = some r ∧ NegOk f r := fun f hf => negationMinimize_spec f false (h.2 f hf)
    obtain ⟨rs, h1, h2⟩ := negL fs ih
    exact ⟨_, by rw [negationMinimize, h1]; rfl, combineNeg_spec (d := false) rfl h2⟩
  | .tru, _, h | .fls, _, h | .not _, _, h | .impl _ _, _, h | .equiv _ _, _, h | .cc _ _ _, _, h | .pbc _ _ _, _, h => by simp [NF.core] at h
where
  negL : ∀ (fs : List (Fm α)), (∀ f ∈ fs, ∃ r, negationMinimize cons len false f = some r ∧ NegOk f r) →
      ∃ rs, negationMinimizeL cons len fs = some rs ∧ List.Forall₂ NegOk fs rs
    | [], _ => ⟨[], by rw [negationMinimizeL], .nil⟩
    | f :: fs, h => by
      obtain ⟨r, h1, h2⟩ := h f List.mem_cons_self
      obtain ⟨rs, h3, h4⟩ := negL fs fun g hg => h g (List.mem_cons_of_mem _ hg)
      exact ⟨r :: rs, by rw [negationMinimizeL, h1, h3], .cons h2 h4⟩

theorem minimizeNegations_spec {cons : Bool} {enc : Fm α → Fm α} {len : Fm α → Nat} (f : Fm α) (hc : NF.CoreC (NF.nnf cons enc f true)) :
    ∃ g, minimizeNegations cons enc len f = some g ∧ (∀ v, g.eval v = f.eval v ∨ g.eval v = (NF.nnf cons enc f true).eval v) ∧ len g ≤ len f := by
  unfold minimizeNegations
  dsimp only
  have hlen : ∀ h : Fm α, formattedLength len true h = len h := fun h => by unfold formattedLength; split <;> simp
  split
  · refine ⟨_, rfl, fun v => ?_, ?_⟩
    · rcases List.mem_cons.1 (smallest_mem (len := len) (top := true) [NF.nnf cons enc f true] f) with e | e
      · left; rw [e]
      · right; rw [List.mem_singleton.1 e]
    · have := smallest_min (len := len) (top := true) [NF.nnf cons enc f true] f f List.mem_cons_self
      rwa [hlen, hlen] at this
  · rename_i hat
    have hcore : NF.core (NF.nnf cons enc f true) = true := by
      rcases hc with e | e | e
      · rw [e] at hat; simp [isAtomic] at hat
      · rw [e] at hat; simp [isAtomic] at hat
      · exact e
    obtain ⟨r, h1, h2⟩ := negationMinimize_spec (cons := cons) (len := len) _ true hcore
    rw [h1]
    refine ⟨smallest len true f [NF.nnf cons enc f true, r.1], rfl, fun v => ?_, ?_⟩
    · rcases List.mem_cons.1 (smallest_mem (len := len) (top := true) [NF.nnf cons enc f true, r.1] f) with e | e
      · left; rw [e]
      · rcases List.mem_cons.1 e with e | e
        · right; rw [e]
        · right; rw [List.mem_singleton.1 e, (h2 v).1]
    · have := smallest_min (len := len) (top := true) [NF.nnf cons enc f true, r.1] f f List.mem_cons_self
      rwa [hlen, hlen] at this

/-- C36: on a formula without constraints `MinimizeNegations` does not panic; the result is equivalent to the formula and not longer, whatever the lengths are -/
theorem C36_negations (cons : Bool) (enc : Fm α → Fm α) (len : Fm α → Nat) (f : Fm α) (h : f.pbFree = true) :
    ∃ g, minimizeNegations cons enc len f = some g ∧ Fm.Equivalent g f ∧ len g ≤ len f := by
  obtain ⟨g, h1, h2, h3⟩ := minimizeNegations_spec (cons := cons) (enc := enc) (len := len) f (NF.nnf_pbFree_core f h true)
  refine ⟨g, h1, fun v => ?_, h3⟩
  rcases h2 v with e | e
  · exact e
  · rw [e]; exact NF.C08_nnf_equivalent cons enc f h v

/-- C36: with constraints whose encodings imply them, the models of the result are models of the formula; where the encodings are exact, the result has the
value of the formula.  (The encodings may use auxiliary variables, so equivalence for all assignments is not claimed.) -/
theorem C36_negations_pb_partial (cons : Bool) (enc : Fm α → Fm α) (len : Fm α → Nat) (f : Fm α)
    (hcore : ∀ g ∈ NF.pbs f, NF.isPB g = true → NF.CoreC (enc g)) :
    ∃ g, minimizeNegations cons enc len f = some g ∧
      ((∀ v, ∀ g ∈ NF.pbs f, NF.isPB g = true → (enc g).eval v = true → g.eval v = true) → ∀ v, g.eval v = true → f.eval v = true) ∧
      (∀ v, (∀ g ∈ NF.pbs f, NF.isPB g = true → (enc g).eval v = g.eval v) → g.eval v = f.eval v) := by
  obtain ⟨g, h1, h2, _⟩ := minimizeNegations_spec (cons := cons) (enc := enc) (len := len) f (NF.nnf_core f hcore true)
  refine ⟨g, h1, fun hs v hv => ?_, fun v he => ?_⟩
  · rcases h2 v with e | e
    · rw [← e]; exact hv
    · rw [hv] at e
      exact NF.nnf_sound (cons := cons) (enc := enc) (v := v) f (hs v) true e.symm
  · rcases h2 v with e | e
    · exact e
    · rw [e, NF.C08_nnf_pb cons enc f v he]; simp

/-- `~a & ~b & ~c & ~d` becomes `~(a | b | c | d)` if negations count -/
example : minimizeNegations false id (fun f => match f with | .not _ => 1 | _ => 5)
      (.and [.lit ⟨0, false⟩, .lit ⟨1, false⟩, .lit ⟨2, false⟩, .lit ⟨3, false⟩] : Fm Nat) =
    some (.not (.or [.lit ⟨0, true⟩, .lit ⟨1, true⟩, .lit ⟨2, true⟩, .lit ⟨3, true⟩])) := by decide +kernel

/-! ## PropagateBackbone -/

/-- what is used of the backbone computation (C22): `none` only for unsatisfiable formulas, otherwise the formula is satisfiable and the literals are implied -/
def BackboneOk (f : Fm α) : BB α → Prop
  | none => ∀ v, f.eval v = false
  | some b => (∃ v, f.eval v = true) ∧ ∀ v, f.eval v = true → ∀ l ∈ completeBackbone b, l.eval v = true

theorem foldl_addLit {a r : Assignment.Asg α} : ∀ {ls : List (Lit α)} {a : Assignment.Asg α}, foldOpt Assignment.addLit a ls = some r →
    ls.foldl (fun a l => (Assignment.addLit a l).getD a) a = r
  | [], a, h => by simpa [foldOpt] using h
  | l :: ls, a, h => by
    simp only [foldOpt] at h
    cases h2 : Assignment.addLit a l with
    | none => simp [h2] at h
    | some a2 =>
      simp only [h2] at h
      rw [List.foldl_cons, h2, Option.getD_some]
      exact foldl_addLit (a := a) h

theorem new_of_model {ls : List (Lit α)} {v : α → Bool} (h : ∀ l ∈ ls, l.eval v = true) : ∃ a, Assignment.new ls = some a := by
  cases hn : Assignment.new ls with
  | some a => exact ⟨a, rfl⟩
  | none =>
    obtain ⟨x, h1, h2⟩ := (Assignment.C06_new_error ls).1 hn
    have e1 := h _ h1
    have e2 := h _ h2
    simp [Lit.eval] at e1 e2
    rw [e1] at e2; cases e2

/-- C36: with a correct backbone `PropagateBackbone` returns an equivalent formula -/
theorem C36_backbone (cons : Bool) (f : Fm α) {b : BB α} (hb : BackboneOk f b) : Fm.Equivalent (propagateBackbone cons f b) f := by
  intro v
  cases b with
  | none => simp [propagateBackbone, hb v]
  | some b =>
    unfold propagateBackbone
    dsimp only
    split
    · obtain ⟨⟨w, hw⟩, hi⟩ := hb
      obtain ⟨a, ha⟩ := new_of_model (hi w hw)
      rw [foldl_addLit (a := a) ha]
      cases hv : f.eval v with
      | true =>
        have h1 := hi v hv
        rw [eval_tAnd]
        simp only [List.all_cons, List.all_nil, Bool.and_true, Bool.and_eq_true, eval_tMinterm, List.all_eq_true]
        exact ⟨h1, by rw [Assignment.C06_restrict ha cons f v h1]; exact hv⟩
      | false =>
        rw [eval_tAnd]
        simp only [List.all_cons, List.all_nil, Bool.and_true, Bool.and_eq_false_iff, eval_tMinterm]
        by_cases h1 : ∀ l ∈ completeBackbone b, l.eval v = true
        · right; rw [Assignment.C06_restrict ha cons f v h1]; exact hv
        · left
          rw [← Bool.not_eq_true, List.all_eq_true]
          exact h1
    · rfl

/-- C36: the propagated literals do not occur in the rest of the result -/
theorem C36_backbone_rest (cons : Bool) (f : Fm α) {b : List α × List α} (hb : BackboneOk f (some b)) (hne : b.2.length > 0 ∨ b.1.length > 0) :
    ∃ g, propagateBackbone cons f (some b) = tAnd cons [tMinterm (completeBackbone b), g] ∧ ∀ x ∈ g.vars, x ∈ f.vars ∧ x ∉ b.1 ∧ x ∉ b.2 := by
  obtain ⟨⟨w, hw⟩, hi⟩ := hb
  obtain ⟨a, ha⟩ := new_of_model (hi w hw)
  refine ⟨Assignment.restrict cons a f, ?_, ?_⟩
  · unfold propagateBackbone
    dsimp only
    rw [if_pos hne, foldl_addLit (a := a) ha]
  · intro x hx
    obtain ⟨h1, h2⟩ := Assignment.C06_restrict_vars ha cons f x hx
    refine ⟨h1, fun h => ?_, fun h => ?_⟩
    · exact h2 ⟨x, true⟩ (List.mem_append_left _ (List.mem_map.2 ⟨x, h, rfl⟩)) rfl
    · exact h2 ⟨x, false⟩ (List.mem_append_right _ (List.mem_map.2 ⟨x, h, rfl⟩)) rfl

/-- `a & (~a | b) & (c | d)`: backbone `a, b` -/
example : BackboneOk (.and [.lit ⟨0, true⟩, .or [.lit ⟨0, false⟩, .lit ⟨1, true⟩], .or [.lit ⟨2, true⟩, .lit ⟨3, true⟩]] : Fm Nat) (some ([0, 1], [])) := by
  refine ⟨⟨fun _ => true, by simp [Lit.eval]⟩, fun v hv l hl => ?_⟩
  simp [Lit.eval] at hv
  simp [completeBackbone] at hl
  rcases hl with rfl | rfl
  · simp [Lit.eval, hv.1]
  · have := hv.2.1; simp [hv.1] at this; simp [Lit.eval, this]
example : propagateBackbone false (.and [.lit ⟨0, true⟩, .or [.lit ⟨0, false⟩, .lit ⟨1, true⟩], .or [.lit ⟨2, true⟩, .lit ⟨3, true⟩]] : Fm Nat) (some ([0, 1], [])) =
    .and [.lit ⟨0, true⟩, .lit ⟨1, true⟩, .or [.lit ⟨2, true⟩, .lit ⟨3, true⟩]] := by decide +kernel

end Verif.Simpl
