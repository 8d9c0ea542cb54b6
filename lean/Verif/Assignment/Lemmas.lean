import Verif.Assignment.Model
namespace Verif.Assignment
open Verif Verif.Tree
variable {α : Type} [DecidableEq α]

theorem evalCmp_eq (a b : Int) (c : Cmp) : evalCmp a b c = c.holds a b := by cases c <;> rfl

/-- effect of a list of `AddLit` calls -/
theorem addLits_spec : ∀ {ls : List (Lit α)} {a a' : Asg α}, foldOpt addLit a ls = some a' →
    (∀ x, x ∈ a'.pos ↔ x ∈ a.pos ∨ ⟨x, true⟩ ∈ ls) ∧ (∀ x, x ∈ a'.neg ↔ x ∈ a.neg ∨ ⟨x, false⟩ ∈ ls)
  | [], a, a', h => by simp [foldOpt] at h; subst h; simp
  | ⟨y, p⟩ :: ls, a, a', h => by
    simp only [foldOpt] at h
    cases e : addLit a ⟨y, p⟩ with
    | none => simp [e] at h
    | some a1 =>
      simp only [e] at h
      have ih := addLits_spec h
      cases p with
      | true =>
        simp only [addLit, if_true] at e
        split at e
        · simp at e
        · simp at e; subst e
          constructor
          · intro x; rw [ih.1 x]; simp [List.mem_insert_iff, or_assoc, or_left_comm, or_comm]
          · intro x; rw [ih.2 x]; simp
      | false =>
        simp only [addLit, Bool.false_eq_true, if_false] at e
        split at e
        · simp at e
        · simp at e; subst e
          constructor
          · intro x; rw [ih.1 x]; simp
          · intro x; rw [ih.2 x]; simp [List.mem_insert_iff, or_assoc, or_left_comm, or_comm]

theorem addLit_disj {a a' : Asg α} {l : Lit α} (h : addLit a l = some a') (hd : ∀ x ∈ a.pos, x ∉ a.neg) :
    ∀ x ∈ a'.pos, x ∉ a'.neg := by
  unfold addLit at h
  split at h
  · split at h
    · simp at h
    · rename_i h1; simp at h; subst h
      intro x hx
      simp only [List.mem_insert_iff] at hx
      rcases hx with rfl | hx
      · exact h1
      · exact hd x hx
  · split at h
    · simp at h
    · rename_i h1; simp at h; subst h
      intro x hx hn
      simp only [List.mem_insert_iff] at hn
      rcases hn with rfl | hn
      · exact h1 hx
      · exact hd x hx hn

theorem new_disj {ls : List (Lit α)} {a : Asg α} (h : new ls = some a) : ∀ x ∈ a.pos, x ∉ a.neg := by
  refine foldOpt_inv (P := fun a : Asg α => ∀ x ∈ a.pos, x ∉ a.neg) ?_ (by simp [empty]) h
  intro a b a' _ hp e; exact addLit_disj e hp

theorem addLits_none : ∀ {ls : List (Lit α)} {a : Asg α}, foldOpt addLit a ls = none →
    ∃ x, (x ∈ a.pos ∨ ⟨x, true⟩ ∈ ls) ∧ (x ∈ a.neg ∨ ⟨x, false⟩ ∈ ls)
  | [], a, h => by simp [foldOpt] at h
  | ⟨y, p⟩ :: ls, a, h => by
    simp only [foldOpt] at h
    cases e : addLit a ⟨y, p⟩ with
    | none =>
      cases p with
      | true =>
        simp only [addLit, if_true] at e
        split at e
        · rename_i h1; exact ⟨y, .inr (by simp), .inl h1⟩
        · simp at e
      | false =>
        simp only [addLit, Bool.false_eq_true, if_false] at e
        split at e
        · rename_i h1; exact ⟨y, .inl h1, .inr (by simp)⟩
        · simp at e
    | some a1 =>
      simp only [e] at h
      obtain ⟨x, h1, h2⟩ := addLits_none h
      have sp := addLits_spec (ls := [⟨y, p⟩]) (a := a) (a' := a1) (by simp [foldOpt, e])
      rw [sp.1 x] at h1
      rw [sp.2 x] at h2
      simp only [List.mem_singleton] at h1 h2
      refine ⟨x, ?_, ?_⟩
      · simp only [List.mem_cons]; rcases h1 with (h | h) | h
        · exact .inl h
        · exact .inr (.inl h)
        · exact .inr (.inr h)
      · simp only [List.mem_cons]; rcases h2 with (h | h) | h
        · exact .inl h
        · exact .inr (.inl h)
        · exact .inr (.inr h)

/-! ### Evaluate -/

theorem evalLit_eq {a : Asg α} (hd : ∀ x ∈ a.pos, x ∉ a.neg) (l : Lit α) :
    evalLit a l = l.eval (fun x => decide (x ∈ a.pos)) := by
  unfold evalLit Lit.eval
  cases l.pos with
  | true => simp
  | false =>
    simp only [Bool.false_eq_true, if_false]
    split
    · rename_i h
      have : l.var ∉ a.pos := fun hp => hd _ hp h
      simp [this]
    · rfl

theorem evalLhs_eq {a : Asg α} (hd : ∀ x ∈ a.pos, x ∉ a.neg) : ∀ ts : List (Int × Lit α),
    evalLhs a ts = linSum (fun x => decide (x ∈ a.pos)) ts
  | [] => rfl
  | (k, l) :: ts => by simp only [evalLhs, linSum, evalLit_eq hd, evalLhs_eq hd ts]

omit [DecidableEq α] in
theorem linSum_ccTerms (v : α → Bool) : ∀ xs : List α, linSum v (ccTerms xs) = cntTrue v xs
  | [] => rfl
  | x :: xs => by
    have := linSum_ccTerms v xs
    unfold ccTerms at *
    simp only [List.map_cons, linSum, cntTrue, Lit.eval, if_true, this]

theorem evaluateAnd_eq (a : Asg α) : ∀ fs, evaluateAnd a fs = fs.all (evaluate a)
  | [] => by simp [evaluateAnd]
  | f :: fs => by
    simp only [evaluateAnd, List.all_cons, evaluateAnd_eq a fs]
    cases evaluate a f <;> simp
theorem evaluateOr_eq (a : Asg α) : ∀ fs, evaluateOr a fs = fs.any (evaluate a)
  | [] => by simp [evaluateOr]
  | f :: fs => by
    simp only [evaluateOr, List.any_cons, evaluateOr_eq a fs]
    cases evaluate a f <;> simp

theorem evaluate_eq {a : Asg α} (hd : ∀ x ∈ a.pos, x ∉ a.neg) (f : Fm α) :
    evaluate a f = f.eval (fun x => decide (x ∈ a.pos)) := by
  induction f using Fm.ind with
  | hf => simp [evaluate]
  | ht => simp [evaluate]
  | hl l => simp [evaluate, evalLit_eq hd]
  | hn f ih => simp [evaluate, ih]
  | ha fs ih =>
    rw [evaluate, evaluateAnd_eq, Fm.eval_and, Bool.eq_iff_iff, List.all_eq_true, List.all_eq_true]
    exact forall₂_congr fun f hf => by rw [ih f hf]
  | ho fs ih =>
    rw [evaluate, evaluateOr_eq, Fm.eval_or, Bool.eq_iff_iff, List.any_eq_true, List.any_eq_true]
    exact exists_congr fun f => and_congr_right fun hf => by rw [ih f hf]
  | hi f g h1 h2 => simp [evaluate, h1, h2]
  | he f g h1 h2 => simp [evaluate, h1, h2]
  | hc c k xs => simp [evaluate, evalCmp_eq, evalLhs_eq hd, linSum_ccTerms]
  | hp c k ts => simp [evaluate, evalCmp_eq, evalLhs_eq hd]

/-! ### Restrict -/

/-- `v` extends the assignment -/
def Compl (a : Asg α) (v : α → Bool) : Prop := (∀ x ∈ a.pos, v x = true) ∧ (∀ x ∈ a.neg, v x = false)

/-- assigned variables -/
def asgVars (a : Asg α) : List α := a.pos ++ a.neg

theorem restrictLit_cases {a : Asg α} {v : α → Bool} (hv : Compl a v) (l : Lit α) :
    (restrictLit a l = .tru ∧ l.eval v = true ∧ l.var ∈ asgVars a) ∨
    (restrictLit a l = .fls ∧ l.eval v = false ∧ l.var ∈ asgVars a) ∨
    (restrictLit a l = .lit l ∧ l.var ∉ asgVars a) := by
  unfold restrictLit Lit.eval asgVars
  cases l.pos with
  | true =>
    simp only [if_true]
    split
    · rename_i h; exact .inl ⟨rfl, hv.1 _ h, by simp [h]⟩
    split
    · rename_i h; exact .inr (.inl ⟨rfl, hv.2 _ h, by simp [h]⟩)
    · rename_i h h'; exact .inr (.inr ⟨rfl, by simp [h, h']⟩)
  | false =>
    simp only [Bool.false_eq_true, if_false]
    split
    · rename_i h; exact .inr (.inl ⟨rfl, by simp [hv.1 _ h], by simp [h]⟩)
    split
    · rename_i h; exact .inl ⟨rfl, by simp [hv.2 _ h], by simp [h]⟩
    · rename_i h h'; exact .inr (.inr ⟨rfl, by simp [h, h']⟩)

theorem restrictLit_eval {a : Asg α} {v : α → Bool} (hv : Compl a v) (l : Lit α) : (restrictLit a l).eval v = l.eval v := by
  rcases restrictLit_cases hv l with ⟨h1, h2, _⟩ | ⟨h1, h2, _⟩ | ⟨h1, _⟩ <;> simp [h1, *]

omit [DecidableEq α] in
theorem linSum_append (v : α → Bool) : ∀ ts us : List (Int × Lit α), linSum v (ts ++ us) = linSum v ts + linSum v us
  | [], us => by simp [linSum]
  | (k, l) :: ts, us => by simp only [List.cons_append, linSum, linSum_append v ts us]; omega

/-- what the loop of `restrict` computes -/
structure RInv (a : Asg α) (v : α → Bool) (r : RAcc α) (s : Int) : Prop where
  sum : r.lhsFixed + linSum v r.terms = s
  lo : r.minV ≤ linSum v r.terms
  hi : linSum v r.terms ≤ r.maxV
  free : ∀ t ∈ r.terms, t.2.var ∉ asgVars a

theorem restrictStep_inv {a : Asg α} {v : α → Bool} (hv : Compl a v) {r : RAcc α} {s : Int} (h : RInv a v r s) (t : Int × Lit α) :
    RInv a v (restrictStep a r t) (s + if t.2.eval v then t.1 else 0) := by
  unfold restrictStep
  rcases restrictLit_cases hv t.2 with ⟨h1, h2, _⟩ | ⟨h1, h2, _⟩ | ⟨h1, h2⟩
  · simp only [h1, h2, if_true]
    exact ⟨by have := h.sum; simp only; omega, h.lo, h.hi, h.free⟩
  · simp only [h1, h2, Bool.false_eq_true, if_false, Int.add_zero]
    exact h
  · simp only [h1]
    have e1 : linSum v (r.terms ++ [t]) = linSum v r.terms + if t.2.eval v then t.1 else 0 := by
      rw [linSum_append]; obtain ⟨k, l⟩ := t; simp [linSum]
    have fr : ∀ u ∈ r.terms ++ [t], u.2.var ∉ asgVars a := by
      intro u hu
      rcases List.mem_append.1 hu with hu | hu
      · exact h.free u hu
      · simp at hu; subst hu; exact h2
    have h3 := h.sum
    have h4 := h.lo
    have h5 := h.hi
    split
    · refine ⟨by simp only [e1]; omega, ?_, ?_, fr⟩
      · simp only [e1]; split <;> omega
      · simp only [e1]; split <;> omega
    · refine ⟨by simp only [e1]; omega, ?_, ?_, fr⟩
      · simp only [e1]; split <;> omega
      · simp only [e1]; split <;> omega

theorem restrictFold_inv {a : Asg α} {v : α → Bool} (hv : Compl a v) : ∀ (ts : List (Int × Lit α)) {r : RAcc α} {s : Int}, RInv a v r s →
    RInv a v (ts.foldl (restrictStep a) r) (s + linSum v ts)
  | [], r, s, h => by simpa [linSum] using h
  | (k, l) :: ts, r, s, h => by
    have := restrictFold_inv hv ts (restrictStep_inv hv h (k, l))
    simp only [List.foldl_cons, linSum]
    rw [← Int.add_assoc]; exact this

theorem restrictFold_mem {a : Asg α} : ∀ (ts : List (Int × Lit α)) {r : RAcc α}, ∀ u ∈ (ts.foldl (restrictStep a) r).terms,
    u ∈ r.terms ∨ u ∈ ts
  | [], r, u, h => .inl h
  | t :: ts, r, u, h => by
    rcases restrictFold_mem ts u h with h | h
    · unfold restrictStep at h
      split at h
      · have h' : u ∈ r.terms ++ [t] := by
          simp only at h
          split at h <;> exact h
        rcases List.mem_append.1 h' with h | h
        · exact .inl h
        · simp at h; exact .inr (by simp [h])
      · exact .inl h
      · exact .inl h
    · exact .inr (by simp [h])

theorem evaluateCoeffs_sound {lo hi x k : Int} (h1 : lo ≤ x) (h2 : x ≤ hi) (c : Cmp) :
    (evaluateCoeffs lo hi k c = .tru → c.holds x k = true) ∧ (evaluateCoeffs lo hi k c = .fls → c.holds x k = false) := by
  unfold evaluateCoeffs
  by_cases a1 : k ≥ lo <;> by_cases a2 : k > lo <;> by_cases a3 : k ≥ hi <;> by_cases a4 : k > hi <;>
    cases c <;> simp [a1, a2, a3, a4, Cmp.holds] <;> omega

theorem restrictPBC_eval {a : Asg α} {v : α → Bool} (hv : Compl a v) (c : Cmp) (k : Int) (ts : List (Int × Lit α)) :
    (restrictPBC a c k ts).eval v = c.holds (linSum v ts) k := by
  have h := restrictFold_inv hv ts (r := ⟨[], 0, 0, 0⟩) (s := 0) ⟨by simp [linSum], by simp [linSum], by simp [linSum], by simp⟩
  rw [Int.zero_add] at h
  unfold restrictPBC
  generalize ts.foldl (restrictStep a) ⟨[], 0, 0, 0⟩ = r at h
  have hs := h.sum
  simp only
  split
  · rename_i he
    have : r.terms = [] := by simpa using he
    rw [this] at hs
    simp [linSum] at hs
    rw [eval_tConst, evalCmp_eq, hs]
  · have e1 : ∀ c : Cmp, c.holds (linSum v r.terms) (k - r.lhsFixed) = c.holds (linSum v ts) k := by
      intro c
      cases c <;> simp [Cmp.holds] <;> omega
    split
    · have := evaluateCoeffs_sound (k := k - r.lhsFixed) h.lo h.hi c
      split
      · rename_i h3; rw [Fm.eval_tru, ← e1, this.1 h3]
      · rename_i h3; rw [Fm.eval_fls, ← e1, this.2 h3]
      · rw [eval_tPBC, e1]
    · rw [eval_tPBC, e1]

theorem restrictL_eq (cons : Bool) (a : Asg α) : ∀ fs, restrictL cons a fs = fs.map (restrict cons a)
  | [] => by simp [restrictL]
  | f :: fs => by simp [restrictL, restrictL_eq cons a fs]

theorem restrict_eval {cons : Bool} {a : Asg α} {v : α → Bool} (hv : Compl a v) (f : Fm α) :
    (restrict cons a f).eval v = f.eval v := by
  induction f using Fm.ind with
  | hf => simp [restrict]
  | ht => simp [restrict]
  | hl l => simp [restrict, restrictLit_eval hv]
  | hn f ih => simp [restrict, ih]
  | ha fs ih =>
    rw [restrict, restrictL_eq, eval_tAnd, Fm.eval_and, List.all_map, Bool.eq_iff_iff, List.all_eq_true, List.all_eq_true]
    exact forall₂_congr fun f hf => by simp only [Function.comp, ih f hf]
  | ho fs ih =>
    rw [restrict, restrictL_eq, eval_tOr, Fm.eval_or, List.any_map, Bool.eq_iff_iff, List.any_eq_true, List.any_eq_true]
    exact exists_congr fun f => and_congr_right fun hf => by simp only [Function.comp, ih f hf]
  | hi f g h1 h2 => simp [restrict, h1, h2]
  | he f g h1 h2 => simp [restrict, h1, h2]
  | hc c k xs => simp [restrict, restrictPBC_eval hv, linSum_ccTerms]
  | hp c k ts => simp [restrict, restrictPBC_eval hv]

omit [DecidableEq α] in
theorem vars_tConst (b : Bool) : (tConst b : Fm α).vars = [] := by cases b <;> simp [tConst]
omit [DecidableEq α] in
theorem vars_tPBC (c : Cmp) (k : Int) (ts : List (Int × Lit α)) : ∀ x ∈ (tPBC c k ts).vars, ∃ t ∈ ts, t.2.var = x := by
  intro x hx
  unfold tPBC at hx
  split at hx
  · rw [vars_tConst] at hx; simp at hx
  split at hx
  · simpa using hx
  · simpa using hx

omit [DecidableEq α] in
theorem compl_of_disj [DecidableEq α] {a : Asg α} (hd : ∀ x ∈ a.pos, x ∉ a.neg) : Compl a (fun x => decide (x ∈ a.pos)) :=
  ⟨fun x hx => by simp [hx], fun x hx => by
    have : x ∉ a.pos := fun h => hd x h hx
    simp [this]⟩

theorem restrictLit_vars {a : Asg α} (hd : ∀ x ∈ a.pos, x ∉ a.neg) (l : Lit α) :
    ∀ x ∈ (restrictLit a l).vars, x = l.var ∧ x ∉ asgVars a := by
  intro x hx
  rcases restrictLit_cases (compl_of_disj hd) l with ⟨h1, _⟩ | ⟨h1, _⟩ | ⟨h1, h2⟩
  · simp [h1] at hx
  · simp [h1] at hx
  · simp [h1] at hx; exact ⟨hx, hx ▸ h2⟩

theorem restrictPBC_vars {a : Asg α} (hd : ∀ x ∈ a.pos, x ∉ a.neg) (c : Cmp) (k : Int) (ts : List (Int × Lit α)) :
    ∀ x ∈ (restrictPBC a c k ts).vars, (∃ t ∈ ts, t.2.var = x) ∧ x ∉ asgVars a := by
  have h := restrictFold_inv (compl_of_disj hd) ts (r := ⟨[], 0, 0, 0⟩) (s := 0) ⟨by simp [linSum], by simp [linSum], by simp [linSum], by simp⟩
  have hm := fun u => restrictFold_mem (a := a) ts (r := ⟨[], 0, 0, 0⟩) u
  have key : ∀ (k' : Int) x, x ∈ (tPBC c k' (ts.foldl (restrictStep a) ⟨[], 0, 0, 0⟩).terms).vars →
      (∃ t ∈ ts, t.2.var = x) ∧ x ∉ asgVars a := by
    intro k' x hx
    obtain ⟨t, ht, e⟩ := vars_tPBC _ _ _ x hx
    rcases hm t ht with h3 | h3
    · simp at h3
    · exact ⟨⟨t, h3, e⟩, e ▸ h.free t ht⟩
  intro x hx
  unfold restrictPBC at hx
  simp only at hx
  split at hx
  · rw [vars_tConst] at hx; simp at hx
  split at hx
  · split at hx
    · simp at hx
    · simp at hx
    · exact key _ x hx
  · exact key _ x hx

theorem restrict_vars {cons : Bool} {a : Asg α} (hd : ∀ x ∈ a.pos, x ∉ a.neg) (f : Fm α) :
    ∀ x ∈ (restrict cons a f).vars, x ∈ f.vars ∧ x ∉ asgVars a := by
  induction f using Fm.ind with
  | hf => simp [restrict]
  | ht => simp [restrict]
  | hl l => intro x hx; have := restrictLit_vars hd l x (by simpa [restrict] using hx); simpa using this
  | hn f ih => intro x hx; simpa using ih x (by simpa [restrict] using hx)
  | ha fs ih =>
    intro x hx
    rw [restrict, restrictL_eq] at hx
    obtain ⟨g, hg, hx⟩ := vars_tAnd _ _ x hx
    obtain ⟨f, hf, rfl⟩ := List.mem_map.1 hg
    have := ih f hf x hx
    exact ⟨by simp only [Fm.vars_and, List.mem_flatMap]; exact ⟨f, hf, this.1⟩, this.2⟩
  | ho fs ih =>
    intro x hx
    rw [restrict, restrictL_eq] at hx
    obtain ⟨g, hg, hx⟩ := vars_tOr _ _ x hx
    obtain ⟨f, hf, rfl⟩ := List.mem_map.1 hg
    have := ih f hf x hx
    exact ⟨by simp only [Fm.vars_or, List.mem_flatMap]; exact ⟨f, hf, this.1⟩, this.2⟩
  | hi f g h1 h2 =>
    intro x hx
    rw [restrict] at hx
    rcases vars_tImpl _ _ _ x hx with h | h
    · exact ⟨by simp [(h1 x h).1], (h1 x h).2⟩
    · exact ⟨by simp [(h2 x h).1], (h2 x h).2⟩
  | he f g h1 h2 =>
    intro x hx
    rw [restrict] at hx
    rcases vars_tEquiv _ _ _ x hx with h | h
    · exact ⟨by simp [(h1 x h).1], (h1 x h).2⟩
    · exact ⟨by simp [(h2 x h).1], (h2 x h).2⟩
  | hc c k xs =>
    intro x hx
    rw [restrict] at hx
    obtain ⟨⟨t, ht, e⟩, h2⟩ := restrictPBC_vars hd _ _ _ x hx
    refine ⟨?_, h2⟩
    simp [ccTerms] at ht
    obtain ⟨y, hy, rfl⟩ := ht
    simpa [← e] using hy
  | hp c k ts =>
    intro x hx
    rw [restrict] at hx
    obtain ⟨⟨t, ht, e⟩, h2⟩ := restrictPBC_vars hd _ _ _ x hx
    exact ⟨by simp only [Fm.vars_pbc, List.mem_map]; exact ⟨t, ht, e⟩, h2⟩

/-! ### constants -/

omit [DecidableEq α] in
theorem isConst_iff {f : Fm α} : isConst f = true ↔ f = .tru ∨ f = .fls := by cases f <;> simp [isConst]

theorem tAnd_const {c : Bool} {fs : List (Fm α)} (h : ∀ f ∈ fs, isConst f = true) : isConst (tAnd c fs) = true := by
  have key : ∀ a, foldOpt (tStepAnd c) [] fs = some a → a = [] := by
    intro a e
    refine foldOpt_inv (P := fun a : List (Fm α) => a = []) ?_ rfl e
    intro a f a' hf ha e
    subst ha
    rcases isConst_iff.1 (h f hf) with rfl | rfl
    · simp [tStepAnd, tAddAnd] at e; exact e
    · simp [tStepAnd, tAddAnd] at e
  unfold tAnd
  split
  · rfl
  · rfl
  · rename_i f e; have := key _ e; simp at this
  · rename_i fs' _ h2 e; exact absurd (key _ e) (by assumption)
theorem tOr_const {c : Bool} {fs : List (Fm α)} (h : ∀ f ∈ fs, isConst f = true) : isConst (tOr c fs) = true := by
  have key : ∀ a, foldOpt (tStepOr c) [] fs = some a → a = [] := by
    intro a e
    refine foldOpt_inv (P := fun a : List (Fm α) => a = []) ?_ rfl e
    intro a f a' hf ha e
    subst ha
    rcases isConst_iff.1 (h f hf) with rfl | rfl
    · simp [tStepOr, tAddOr] at e
    · simp [tStepOr, tAddOr] at e; exact e
  unfold tOr
  split
  · rfl
  · rfl
  · rename_i f e; have := key _ e; simp at this
  · rename_i fs' _ h2 e; exact absurd (key _ e) (by assumption)

theorem restrictPBC_const {a : Asg α} (hd : ∀ x ∈ a.pos, x ∉ a.neg) (c : Cmp) (k : Int) (ts : List (Int × Lit α))
    (h : ∀ t ∈ ts, t.2.var ∈ asgVars a) : isConst (restrictPBC a c k ts) = true := by
  have hi := restrictFold_inv (compl_of_disj hd) ts (r := ⟨[], 0, 0, 0⟩) (s := 0) ⟨by simp [linSum], by simp [linSum], by simp [linSum], by simp⟩
  have hm := fun u => restrictFold_mem (a := a) ts (r := ⟨[], 0, 0, 0⟩) u
  have : (ts.foldl (restrictStep a) ⟨[], 0, 0, 0⟩).terms = [] := by
    rw [List.eq_nil_iff_forall_not_mem]
    intro u hu
    rcases hm u hu with h3 | h3
    · simp at h3
    · exact hi.free u hu (h u h3)
  unfold restrictPBC
  simp only [this, List.isEmpty_nil, if_true]
  cases evalCmp _ k c <;> rfl

theorem tNot_const {f : Fm α} (h : isConst f = true) : isConst (tNot f) = true := by
  rcases isConst_iff.1 h with rfl | rfl <;> rfl
theorem tImpl_const {c : Bool} {f g : Fm α} (h : isConst f = true) (h' : isConst g = true) : isConst (tImpl c f g) = true := by
  rcases isConst_iff.1 h with rfl | rfl <;> rcases isConst_iff.1 h' with rfl | rfl <;> simp [tImpl, isConst, tNot]
theorem tEquiv_const {c : Bool} {f g : Fm α} (h : isConst f = true) (h' : isConst g = true) : isConst (tEquiv c f g) = true := by
  rcases isConst_iff.1 h with rfl | rfl <;> rcases isConst_iff.1 h' with rfl | rfl <;> simp [tEquiv, isConst, tNot]

theorem restrict_const {cons : Bool} {a : Asg α} (hd : ∀ x ∈ a.pos, x ∉ a.neg) (f : Fm α) (h : ∀ x ∈ f.vars, x ∈ asgVars a) :
    isConst (restrict cons a f) = true := by
  induction f using Fm.ind with
  | hf => simp [restrict, isConst]
  | ht => simp [restrict, isConst]
  | hl l =>
    rw [restrict]
    rcases restrictLit_cases (compl_of_disj hd) l with ⟨h1, _⟩ | ⟨h1, _⟩ | ⟨h1, h2⟩
    · simp [h1, isConst]
    · simp [h1, isConst]
    · exact absurd (h l.var (by simp)) h2
  | hn f ih => rw [restrict]; exact tNot_const (ih (by simpa using h))
  | ha fs ih =>
    rw [restrict, restrictL_eq]
    refine tAnd_const ?_
    intro g hg
    obtain ⟨f, hf, rfl⟩ := List.mem_map.1 hg
    exact ih f hf (fun x hx => h x (by simp only [Fm.vars_and, List.mem_flatMap]; exact ⟨f, hf, hx⟩))
  | ho fs ih =>
    rw [restrict, restrictL_eq]
    refine tOr_const ?_
    intro g hg
    obtain ⟨f, hf, rfl⟩ := List.mem_map.1 hg
    exact ih f hf (fun x hx => h x (by simp only [Fm.vars_or, List.mem_flatMap]; exact ⟨f, hf, hx⟩))
  | hi f g h1 h2 =>
    rw [restrict]; exact tImpl_const (h1 fun x hx => h x (by simp [hx])) (h2 fun x hx => h x (by simp [hx]))
  | he f g h1 h2 =>
    rw [restrict]; exact tEquiv_const (h1 fun x hx => h x (by simp [hx])) (h2 fun x hx => h x (by simp [hx]))
  | hc c k xs =>
    rw [restrict]
    refine restrictPBC_const hd _ _ _ ?_
    intro t ht
    simp [ccTerms] at ht
    obtain ⟨y, hy, rfl⟩ := ht
    exact h y (by simpa using hy)
  | hp c k ts =>
    rw [restrict]
    exact restrictPBC_const hd _ _ _ fun t ht => h _ (by simp only [Fm.vars_pbc, List.mem_map]; exact ⟨t, ht, rfl⟩)

/-! ### EvaluatesToTrue / EvaluatesToFalse -/

/-- relation between the result `r` of `test` and its argument: exact below the top level, otherwise only an implication in the
direction which is asked for -/
def Good (c : Ctx α) (top : Bool) (v : α → Bool) (r f : Fm α) : Prop :=
  (top = false → r.eval v = f.eval v) ∧ (c.toTrue = true → r.eval v = true → f.eval v = true) ∧
    (c.toTrue = false → f.eval v = true → r.eval v = true)

omit [DecidableEq α] in
theorem Good.ofEq {c : Ctx α} {top : Bool} {v : α → Bool} {r f : Fm α} (h : r.eval v = f.eval v) : Good c top v r f :=
  ⟨fun _ => h, fun _ h' => h ▸ h', fun _ h' => h ▸ h'⟩

theorem lookup_mem {m : List (α × Bool)} {x : α} {b : Bool} (h : m.lookup x = some b) : (x, b) ∈ m := by
  induction m with
  | nil => simp at h
  | cons e m ih =>
    obtain ⟨y, d⟩ := e
    rw [List.lookup_cons] at h
    split at h
    · rename_i h1; simp at h h1; subst h; subst h1; simp
    · simp [ih h]

theorem lookup_of_mem {m : List (α × Bool)} {x : α} {b : Bool} (h : (x, b) ∈ m) : ∃ b', m.lookup x = some b' := by
  induction m with
  | nil => simp at h
  | cons e m ih =>
    obtain ⟨y, d⟩ := e
    rw [List.lookup_cons]
    split
    · exact ⟨_, rfl⟩
    · rename_i h1
      rcases List.mem_cons.1 h with h | h
      · simp at h; simp [h.1] at h1
      · exact ih h

theorem ctxAsg_aux {v : α → Bool} : ∀ (m : List (α × Bool)) (a : Asg α), (∀ e ∈ m, v e.1 = e.2) → Compl a v →
    (∀ x ∈ a.pos, x ∉ a.neg) →
    let a' := m.foldl (fun a e => (addLit a ⟨e.1, e.2⟩).getD a) a
    Compl a' v ∧ (∀ x ∈ a'.pos, x ∉ a'.neg) ∧ (∀ x, x ∈ asgVars a → x ∈ asgVars a') ∧ ∀ e ∈ m, e.1 ∈ asgVars a'
  | [], a, _, hc, hd => ⟨hc, hd, fun _ h => h, by simp⟩
  | (x, b) :: m, a, hm, hc, hd => by
    have hx : v x = b := hm (x, b) (by simp)
    obtain ⟨a1, e1, hc1, hs1, hx1⟩ : ∃ a1, addLit a ⟨x, b⟩ = some a1 ∧ Compl a1 v ∧ (∀ y, y ∈ asgVars a → y ∈ asgVars a1) ∧ x ∈ asgVars a1 := by
      cases b with
      | true =>
        have : x ∉ a.neg := fun h => by have := hc.2 x h; rw [hx] at this; simp at this
        refine ⟨{ a with pos := a.pos.insert x }, by simp [addLit, this], ⟨?_, hc.2⟩, ?_, ?_⟩
        · intro y hy
          simp only [List.mem_insert_iff] at hy
          rcases hy with rfl | hy
          · exact hx
          · exact hc.1 y hy
        · intro y hy; simp only [asgVars, List.mem_append, List.mem_insert_iff] at *; rcases hy with hy | hy <;> simp [hy]
        · simp [asgVars]
      | false =>
        have : x ∉ a.pos := fun h => by have := hc.1 x h; rw [hx] at this; simp at this
        refine ⟨{ a with neg := a.neg.insert x }, by simp [addLit, this], ⟨hc.1, ?_⟩, ?_, ?_⟩
        · intro y hy
          simp only [List.mem_insert_iff] at hy
          rcases hy with rfl | hy
          · exact hx
          · exact hc.2 y hy
        · intro y hy; simp only [asgVars, List.mem_append, List.mem_insert_iff] at *; rcases hy with hy | hy <;> simp [hy]
        · simp [asgVars]
    have ih := ctxAsg_aux m a1 (fun e he => hm e (by simp [he])) hc1 (addLit_disj e1 hd)
    simp only [List.foldl_cons, e1, Option.getD_some]
    refine ⟨ih.1, ih.2.1, fun y hy => ih.2.2.1 y (hs1 y hy), ?_⟩
    intro e he
    rcases List.mem_cons.1 he with rfl | he
    · exact ih.2.2.1 _ hx1
    · exact ih.2.2.2 e he

theorem ctxAsg_spec {c : Ctx α} {v : α → Bool} (hm : ∀ e ∈ c.mapping, v e.1 = e.2) :
    Compl (ctxAsg c) v ∧ (∀ x ∈ (ctxAsg c).pos, x ∉ (ctxAsg c).neg) ∧ ∀ e ∈ c.mapping, e.1 ∈ asgVars (ctxAsg c) := by
  have := ctxAsg_aux c.mapping empty hm ⟨by simp [empty], by simp [empty]⟩ (by simp [empty])
  exact ⟨this.1, this.2.1, this.2.2.2⟩

theorem testLit_eval {c : Ctx α} {v : α → Bool} (hm : ∀ e ∈ c.mapping, v e.1 = e.2) (l : Lit α) :
    (testLit c l).eval v = l.eval v := by
  unfold testLit
  split
  · simp
  · rename_i b h
    have := hm _ (lookup_mem h)
    simp only at this
    rw [eval_tConst, Lit.eval, this]
    cases l.pos <;> cases b <;> rfl

theorem notPost_good {c : Ctx α} {top : Bool} {v : α → Bool} {r f : Fm α} (h : Good c false v r f) : Good c top v (notPost c top r) (.not f) := by
  have h1 := h.1 rfl
  unfold notPost
  split
  · rename_i h2
    simp at h2
    refine ⟨fun h => by simp [h] at h2, fun h => by simp [h], fun h => by simp [h]⟩
  split
  · rename_i h2
    refine .ofEq ?_
    rcases isConst_iff.1 h2 with h2 | h2 <;> simp [h2, ← h1]
  · exact .ofEq (by simp [h1])

theorem testOr_good {c : Ctx α} {v : α → Bool} : ∀ (fs : List (Fm α)) (top : Bool) (nops : List (Fm α)),
    (∀ f ∈ fs, ∀ top, Good c top v (test c f top) f) → Good c top v (testOr c fs top nops) (.or (nops ++ fs))
  | [], top, nops, _ => by rw [testOr]; exact .ofEq (by simp)
  | f :: fs, top, nops, h => by
    have hf := h f (by simp) (!c.toTrue && top)
    have ih := fun n => testOr_good fs top n (fun g hg => h g (by simp [hg]))
    rw [testOr]
    change Good c top v (if test c f (!c.toTrue && top) = .tru then .tru else if !isConst (test c f (!c.toTrue && top)) then if !c.toTrue && top then .tru else testOr c fs top (nops ++ [test c f (!c.toTrue && top)]) else testOr c fs top nops) _
    split
    · rename_i h1
      rw [h1] at hf
      refine ⟨fun h2 => ?_, fun h2 _ => ?_, fun h2 _ => by simp⟩
      · have := hf.1 (by simp [h2]); simp at this; simp [this]
      · have := hf.1 (by simp [h2]); simp at this; simp [this]
    rename_i hnt
    split
    · rename_i hnc
      split
      · rename_i h1
        simp at h1
        exact ⟨fun h2 => by simp [h2] at h1, fun h2 => by simp [h2] at h1, fun _ _ => by simp⟩
      · rename_i h1
        have he := hf.1 (by simpa using h1)
        have := ih (nops ++ [test c f (!c.toTrue && top)])
        unfold Good at *
        simp only [Fm.eval_or, List.any_append, List.any_cons, he, List.any_nil, Bool.or_false, Bool.or_assoc] at *
        exact this
    · rename_i hc
      have hr : test c f (!c.toTrue && top) = .fls := by
        rcases isConst_iff.1 (by simpa using hc) with h | h
        · exact absurd h hnt
        · exact h
      rw [hr] at hf
      have hfe : f.eval v = false := by
        cases hb : (!c.toTrue && top) with
        | false => have := hf.1 hb; simpa using this.symm
        | true =>
          simp at hb
          have := hf.2.2 hb.1
          simpa using this
      have := ih nops
      unfold Good at *
      simp only [Fm.eval_or, List.any_append, List.any_cons, hfe, Bool.false_or] at *
      exact this

theorem testAnd_good {c : Ctx α} {v : α → Bool} : ∀ (fs : List (Fm α)) (top : Bool) (nops : List (Fm α)),
    (∀ f ∈ fs, ∀ top, Good c top v (test c f top) f) → Good c top v (testAnd c fs top nops) (.and (nops ++ fs))
  | [], top, nops, _ => by rw [testAnd]; exact .ofEq (by simp)
  | f :: fs, top, nops, h => by
    have hf := h f (by simp) (c.toTrue && top)
    have ih := fun n => testAnd_good fs top n (fun g hg => h g (by simp [hg]))
    rw [testAnd]
    change Good c top v (if test c f (c.toTrue && top) = .fls then .fls else if !isConst (test c f (c.toTrue && top)) then if c.toTrue && top then .fls else testAnd c fs top (nops ++ [test c f (c.toTrue && top)]) else testAnd c fs top nops) _
    split
    · rename_i h1
      rw [h1] at hf
      refine ⟨fun h2 => ?_, fun _ h2 => by simp at h2, fun h2 h3 => ?_⟩
      · have := hf.1 (by simp [h2]); simp at this; simp [this]
      · have := hf.1 (by simp [h2]); simp at this; simp [this] at h3
    rename_i hnt
    split
    · rename_i hnc
      split
      · rename_i h1
        simp at h1
        exact ⟨fun h2 => by simp [h2] at h1, fun _ h2 => by simp at h2, fun h2 => by simp [h2] at h1⟩
      · rename_i h1
        have he := hf.1 (by simpa using h1)
        have := ih (nops ++ [test c f (c.toTrue && top)])
        unfold Good at *
        simp only [Fm.eval_and, List.all_append, List.all_cons, he, List.all_nil, Bool.and_true, Bool.and_assoc] at *
        exact this
    · rename_i hc
      have hr : test c f (c.toTrue && top) = .tru := by
        rcases isConst_iff.1 (by simpa using hc) with h | h
        · exact h
        · exact absurd h hnt
      rw [hr] at hf
      have hfe : f.eval v = true := by
        cases hb : (c.toTrue && top) with
        | false => have := hf.1 hb; simpa using this.symm
        | true =>
          simp at hb
          have := hf.2.1 hb.1
          simpa using this
      have := ih nops
      unfold Good at *
      simp only [Fm.eval_and, List.all_append, List.all_cons, hfe, Bool.true_and] at *
      exact this

/-- the second component of `test2` is `test` on the factory's negation -/
theorem test2_snd (c : Ctx α) (f : Fm α) (top : Bool) : (test2 c f).2 top = test c (tNot f) top := by
  unfold test
  cases f <;> simp [test2, tNot, withNot]

theorem implCase_good {c : Ctx α} {v : α → Bool} {f g : Fm α} {p q : Res α} (h1 : ∀ top, Good c top v (p.1 top) f)
    (h2 : ∀ top, Good c top v (q.1 top) g) (top : Bool) : Good c top v (implCase c p q top) (.impl f g) := by
  have e1 := (h1 false).1 rfl
  have e2 := (h2 false).1 rfl
  have h2t := h2 top
  unfold implCase
  simp only
  split
  · rename_i hc
    rcases isConst_iff.1 hc with hc | hc
    · rw [hc] at e1
      simp only [hc, if_true, reduceCtorEq, if_false]
      have : Good c top v (q.1 top) (.impl f g) := by
        unfold Good at *; simp only [Fm.eval_impl, ← e1, Fm.eval_tru, Bool.not_true, Bool.false_or]; exact h2t
      split <;> exact this
    · rw [hc] at e1
      simp only [hc, if_true, reduceCtorEq, if_false]
      have : Good c top v .tru (.impl f g) := .ofEq (by simp [← e1])
      split <;> exact this
  split
  · rename_i h3
    simp at h3
    exact ⟨fun h => by simp [h] at h3, fun h => by simp [h] at h3, fun _ _ => by simp⟩
  split
  · rename_i hc
    rcases isConst_iff.1 hc with hc | hc
    · rw [hc] at e2
      simp only [hc, if_true]
      exact .ofEq (by simp [← e2])
    · rw [hc] at e2
      simp only [hc, reduceCtorEq, if_false]
      exact .ofEq (by simp [← e2, e1])
  · exact .ofEq (by simp [e1, e2])

theorem equivCase_good {c : Ctx α} {v : α → Bool} {f g : Fm α} {p q : Res α} (h1 : ∀ top, Good c top v (p.1 top) f)
    (h2 : ∀ top, Good c top v (q.1 top) g) (h3 : ∀ top, Good c top v (q.2 top) (.not g)) (top : Bool) :
    Good c top v (equivCase c p q top) (.equiv f g) := by
  have e1 := (h1 false).1 rfl
  have e2 := (h2 false).1 rfl
  have h2t := h2 top
  have h3t := h3 top
  unfold equivCase
  simp only
  split
  · rename_i hc
    split
    · rename_i h3
      rw [h3] at e1
      unfold Good at *; simp only [Fm.eval_equiv, ← e1, Fm.eval_tru, Bool.true_beq]; exact h2t
    · rename_i h3
      have h4 : p.1 false = .fls := (isConst_iff.1 hc).resolve_left h3
      rw [h4] at e1
      unfold Good at *; simp only [Fm.eval_equiv, ← e1, Fm.eval_fls, Bool.false_beq, Fm.eval_not] at *; exact h3t
  split
  · rename_i hc
    split
    · rename_i h3
      subst h3
      exact ⟨fun h => by simp at h, fun h => by simp [h], fun h => by simp [h]⟩
    split
    · rename_i h3
      rw [h3] at e2
      exact .ofEq (by simp [← e2, e1])
    · rename_i h3
      have h4 := (isConst_iff.1 hc).resolve_left h3
      rw [h4] at e2
      exact .ofEq (by simp [← e2, e1])
  · exact .ofEq (by simp [e1, e2])

theorem test2_good {c : Ctx α} {v : α → Bool} (hm : ∀ e ∈ c.mapping, v e.1 = e.2) (f : Fm α) :
    (∀ top, Good c top v ((test2 c f).1 top) f) ∧ (∀ top, Good c top v ((test2 c f).2 top) (.not f)) := by
  have wn : ∀ (p : Bool → Fm α) (f : Fm α), (∀ top, Good c top v (p top) f) →
      (∀ top, Good c top v ((withNot c p).1 top) f) ∧ (∀ top, Good c top v ((withNot c p).2 top) (.not f)) :=
    fun p f h => ⟨h, fun top => notPost_good (h false)⟩
  induction f using Fm.ind with
  | hf => rw [test2]; exact ⟨fun _ => .ofEq rfl, fun _ => .ofEq (by simp)⟩
  | ht => rw [test2]; exact ⟨fun _ => .ofEq rfl, fun _ => .ofEq (by simp)⟩
  | hl l =>
    rw [test2]
    refine ⟨fun _ => .ofEq (by simp [testLit_eval hm]), fun _ => .ofEq ?_⟩
    simp only [testLit_eval hm, Fm.eval_not, Fm.eval_lit]
    simp [Lit.neg, Lit.eval]; cases l.pos <;> simp
  | hn f ih =>
    rw [test2]
    refine ⟨fun top => notPost_good (ih.1 false), fun top => ?_⟩
    have := ih.1 top
    unfold Good at *
    simpa using this
  | ha fs ih => rw [test2]; exact wn _ _ fun top => by simpa using testAnd_good fs top [] (fun f hf => (ih f hf).1)
  | ho fs ih => rw [test2]; exact wn _ _ fun top => by simpa using testOr_good fs top [] (fun f hf => (ih f hf).1)
  | hi f g h1 h2 => rw [test2]; exact wn _ _ (implCase_good h1.1 h2.1)
  | he f g h1 h2 => rw [test2]; exact wn _ _ (equivCase_good h1.1 h2.1 h2.2)
  | hc m k xs =>
    rw [test2]
    exact wn _ _ fun top => .ofEq (by rw [restrictPBC_eval (ctxAsg_spec hm).1, linSum_ccTerms]; simp)
  | hp m k ts =>
    rw [test2]
    exact wn _ _ fun top => .ofEq (by rw [restrictPBC_eval (ctxAsg_spec hm).1]; simp)

theorem test_good {c : Ctx α} {v : α → Bool} (hm : ∀ e ∈ c.mapping, v e.1 = e.2) (f : Fm α) (top : Bool) :
    Good c top v (test c f top) f := (test2_good hm f).1 top

/-! ### total mappings give constants -/

omit [DecidableEq α] in
theorem isConst_tConst (b : Bool) : isConst (tConst b : Fm α) = true := by cases b <;> rfl

theorem tOr_nil (c : Bool) : tOr c ([] : List (Fm α)) = .fls := rfl
theorem tAnd_nil (c : Bool) : tAnd c ([] : List (Fm α)) = .tru := rfl

theorem notPost_total {c : Ctx α} {top : Bool} {b : Bool} : notPost c top (tConst b) = tConst (!b) := by
  cases b <;> simp [notPost, isConst_tConst] <;> rfl

theorem testLit_total {c : Ctx α} {v : α → Bool} (hm : ∀ e ∈ c.mapping, v e.1 = e.2) {l : Lit α} (h : ∃ b, (l.var, b) ∈ c.mapping) :
    testLit c l = tConst (l.eval v) := by
  obtain ⟨b, h⟩ := h
  obtain ⟨b', e⟩ := lookup_of_mem h
  have := hm _ (lookup_mem e)
  simp only [testLit, e]
  simp only at this
  rw [Lit.eval, this]; cases l.pos <;> cases b' <;> rfl

theorem testOr_total {c : Ctx α} {v : α → Bool} : ∀ (fs : List (Fm α)) (top : Bool),
    (∀ f ∈ fs, ∀ top, (test2 c f).1 top = tConst (f.eval v)) → testOr c fs top [] = tConst (fs.any (Fm.eval v))
  | [], top, _ => by rw [testOr]; rfl
  | f :: fs, top, h' => by
    have h1 := h' f (by simp) (!c.toTrue && top)
    rw [testOr]
    simp only [h1, isConst_tConst, Bool.not_true, Bool.false_eq_true, if_false, List.any_cons]
    cases f.eval v with
    | true => rfl
    | false =>
      simp only [tConst, Bool.false_eq_true, if_false, reduceCtorEq, Bool.false_or]
      exact testOr_total fs top (fun g hg => h' g (by simp [hg]))
theorem testAnd_total {c : Ctx α} {v : α → Bool} : ∀ (fs : List (Fm α)) (top : Bool),
    (∀ f ∈ fs, ∀ top, (test2 c f).1 top = tConst (f.eval v)) → testAnd c fs top [] = tConst (fs.all (Fm.eval v))
  | [], top, _ => by rw [testAnd]; rfl
  | f :: fs, top, h' => by
    have h1 := h' f (by simp) (c.toTrue && top)
    rw [testAnd]
    simp only [h1, isConst_tConst, Bool.not_true, Bool.false_eq_true, if_false, List.all_cons]
    cases f.eval v with
    | false => rfl
    | true =>
      simp only [tConst, if_true, if_false, reduceCtorEq, Bool.true_and]
      exact testAnd_total fs top (fun g hg => h' g (by simp [hg]))

omit [DecidableEq α] in
theorem eq_tConst {f : Fm α} {v : α → Bool} (h : isConst f = true) : f = tConst (f.eval v) := by
  rcases isConst_iff.1 h with rfl | rfl <;> simp [tConst]

theorem test2_total {c : Ctx α} {v : α → Bool} (hm : ∀ e ∈ c.mapping, v e.1 = e.2) (f : Fm α) (hf : ∀ x ∈ f.vars, ∃ b, (x, b) ∈ c.mapping) :
    (∀ top, (test2 c f).1 top = tConst (f.eval v)) ∧ (∀ top, (test2 c f).2 top = tConst (!f.eval v)) := by
  have wn : ∀ (p : Bool → Fm α) (f : Fm α), (∀ top, p top = tConst (f.eval v)) →
      (∀ top, (withNot c p).1 top = tConst (f.eval v)) ∧ (∀ top, (withNot c p).2 top = tConst (!f.eval v)) :=
    fun p f h => ⟨h, fun top => by simp only [withNot, h, notPost_total]⟩
  have pb : ∀ m k (ts : List (Int × Lit α)), (∀ t ∈ ts, ∃ b, (t.2.var, b) ∈ c.mapping) →
      restrictPBC (ctxAsg c) m k ts = tConst (m.holds (linSum v ts) k) := by
    intro m k ts h
    rw [← restrictPBC_eval (ctxAsg_spec hm).1]
    refine eq_tConst (restrictPBC_const (ctxAsg_spec hm).2.1 _ _ _ fun t ht => ?_)
    obtain ⟨b, hb⟩ := h t ht
    exact (ctxAsg_spec hm).2.2 _ hb
  induction f using Fm.ind with
  | hf => rw [test2]; exact ⟨fun _ => by simp [tConst], fun _ => by simp [tConst]⟩
  | ht => rw [test2]; exact ⟨fun _ => by simp [tConst], fun _ => by simp [tConst]⟩
  | hl l =>
    rw [test2]
    have h := hf l.var (by simp)
    refine ⟨fun _ => by simp [testLit_total hm h], fun _ => ?_⟩
    rw [testLit_total hm (l := l.neg) (by simpa [Lit.neg] using h)]
    simp [Lit.neg, Lit.eval]; cases l.pos <;> simp
  | hn f ih =>
    rw [test2]
    have ih := ih (by simpa using hf)
    exact ⟨fun top => by simp only [ih.1, notPost_total, Fm.eval_not], fun top => by simp [ih.1]⟩
  | ha fs ih =>
    rw [test2]
    refine wn _ _ fun top => ?_
    rw [Fm.eval_and]
    refine testAnd_total fs top fun f hf' => (ih f hf' ?_).1
    intro x hx; exact hf x (by simp only [Fm.vars_and, List.mem_flatMap]; exact ⟨f, hf', hx⟩)
  | ho fs ih =>
    rw [test2]
    refine wn _ _ fun top => ?_
    rw [Fm.eval_or]
    refine testOr_total fs top fun f hf' => (ih f hf' ?_).1
    intro x hx; exact hf x (by simp only [Fm.vars_or, List.mem_flatMap]; exact ⟨f, hf', hx⟩)
  | hi f g h1 h2 =>
    rw [test2]
    have h1 := h1 fun x hx => hf x (by simp [hx])
    have h2 := h2 fun x hx => hf x (by simp [hx])
    refine wn _ _ fun top => ?_
    unfold implCase
    simp only [h1.1, h2.1, isConst_tConst, if_true, Fm.eval_impl]
    cases f.eval v <;> cases c.toTrue <;> simp [tConst]
  | he f g h1 h2 =>
    rw [test2]
    have h1 := h1 fun x hx => hf x (by simp [hx])
    have h2 := h2 fun x hx => hf x (by simp [hx])
    refine wn _ _ fun top => ?_
    unfold equivCase
    simp only [h1.1, h2.1, h2.2, isConst_tConst, if_true, Fm.eval_equiv]
    cases f.eval v <;> simp [tConst]
  | hc m k xs =>
    rw [test2]
    refine wn _ _ fun top => ?_
    rw [pb, linSum_ccTerms, Fm.eval_cc]
    intro t ht
    simp [ccTerms] at ht
    obtain ⟨y, hy, rfl⟩ := ht
    exact hf y (by simpa using hy)
  | hp m k ts =>
    rw [test2]
    refine wn _ _ fun top => ?_
    rw [pb, Fm.eval_pbc]
    intro t ht
    exact hf t.2.var (by simp only [Fm.vars_pbc, List.mem_map]; exact ⟨t, ht, rfl⟩)

end Verif.Assignment
