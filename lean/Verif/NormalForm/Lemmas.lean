import Verif.NormalForm.Model
namespace Verif.NF
open Verif Verif.Tree Verif.Spec
variable {α : Type} [DecidableEq α]

/-! ### shapes -/

mutual
/-- literals, conjunctions and disjunctions with at least two operands, no constants below -/
def core : Fm α → Bool
  | .lit _ => true
  | .and fs => decide (2 ≤ fs.length) && coreL fs
  | .or fs => decide (2 ≤ fs.length) && coreL fs
  | _ => false
def coreL : List (Fm α) → Bool
  | [] => true
  | f :: fs => core f && coreL fs
end
omit [DecidableEq α] in
theorem coreL_eq (fs : List (Fm α)) : coreL fs = fs.all core := by
  induction fs with
  | nil => rfl
  | cons f fs ih => simp [coreL, ih]
omit [DecidableEq α] in
@[simp] theorem core_lit (l : Lit α) : core (.lit l) = true := by simp [core]
omit [DecidableEq α] in
@[simp] theorem core_and (fs : List (Fm α)) : core (.and fs) = (decide (2 ≤ fs.length) && fs.all core) := by simp [core, coreL_eq]
omit [DecidableEq α] in
@[simp] theorem core_or (fs : List (Fm α)) : core (.or fs) = (decide (2 ≤ fs.length) && fs.all core) := by simp [core, coreL_eq]

/-- a constant or constant-free -/
def CoreC (f : Fm α) : Prop := f = .tru ∨ f = .fls ∨ core f = true

omit [DecidableEq α] in
theorem CoreC.lit (l : Lit α) : CoreC (.lit l) := .inr (.inr (by simp))

theorem CoreC.tAnd {c : Bool} {fs : List (Fm α)} (h : ∀ f ∈ fs, CoreC f) : CoreC (tAnd c fs) := by
  have key : ∀ g, AndOp fs g → core g = true := by
    rintro g ⟨h1, h2, h3⟩
    rcases h3 with ⟨h3, _⟩ | ⟨gs, h3, h4⟩
    · exact ((h g h3).resolve_left h1).resolve_left h2
    · rcases h _ h3 with h | h | h
      · cases h
      · cases h
      · simp only [core_and, Bool.and_eq_true, List.all_eq_true] at h; exact h.2 g h4
  refine tAnd_elim (.inl rfl) (.inr (.inl rfl)) (fun g hg => .inr (.inr (key g hg))) ?_
  intro a h1 _ h2
  refine .inr (.inr ?_)
  simp only [core_and, Bool.and_eq_true, List.all_eq_true, decide_eq_true_eq]
  exact ⟨h1, fun g hg => key g (h2 g hg)⟩
theorem CoreC.tOr {c : Bool} {fs : List (Fm α)} (h : ∀ f ∈ fs, CoreC f) : CoreC (tOr c fs) := by
  have key : ∀ g, OrOp fs g → core g = true := by
    rintro g ⟨h1, h2, h3⟩
    rcases h3 with ⟨h3, _⟩ | ⟨gs, h3, h4⟩
    · exact ((h g h3).resolve_left h1).resolve_left h2
    · rcases h _ h3 with h | h | h
      · cases h
      · cases h
      · simp only [core_or, Bool.and_eq_true, List.all_eq_true] at h; exact h.2 g h4
  refine tOr_elim (.inl rfl) (.inr (.inl rfl)) (fun g hg => .inr (.inr (key g hg))) ?_
  intro a h1 _ h2
  refine .inr (.inr ?_)
  simp only [core_or, Bool.and_eq_true, List.all_eq_true, decide_eq_true_eq]
  exact ⟨h1, fun g hg => key g (h2 g hg)⟩

omit [DecidableEq α] in
theorem core_isNNF (f : Fm α) : core f = true → isNNF f = true := by
  induction f using Fm.ind with
  | hf => simp [core]
  | ht => simp [core]
  | hl l => simp
  | hn f ih => simp [core]
  | ha fs ih =>
    simp only [core_and, Bool.and_eq_true, List.all_eq_true, isNNF_and]
    exact fun h f hf => ih f hf (h.2 f hf)
  | ho fs ih =>
    simp only [core_or, Bool.and_eq_true, List.all_eq_true, isNNF_or]
    exact fun h f hf => ih f hf (h.2 f hf)
  | hi f g h1 h2 => simp [core]
  | he f g h1 h2 => simp [core]
  | hc c k xs => simp [core]
  | hp c k ts => simp [core]

omit [DecidableEq α] in
theorem CoreC.isNNF {f : Fm α} (h : CoreC f) : isNNF f = true := by
  rcases h with rfl | rfl | h
  · simp
  · simp
  · exact core_isNNF f h

/-! ### constraints occurring in a formula -/

def isPB : Fm α → Bool
  | .cc _ _ _ => true
  | .pbc _ _ _ => true
  | _ => false

/-- the constraints to which the negation of a constraint leads -/
def negParts (c : Cmp) (k : Int) (ts : List (Int × Lit α)) : List (Fm α) :=
  match c with
  | .eq => [tPBC .lt k ts, tPBC .gt k ts]
  | .le => [tPBC .gt k ts]
  | .lt => [tPBC .ge k ts]
  | .ge => [tPBC .lt k ts]
  | .gt => [tPBC .le k ts]

mutual
/-- the constraints on which the encoder may be called by `nnf` -/
def pbs : Fm α → List (Fm α)
  | .not f => pbs f
  | .and fs => pbsL fs
  | .or fs => pbsL fs
  | .impl f g => pbs f ++ pbs g
  | .equiv f g => pbs f ++ pbs g
  | .cc c k xs => .cc c k xs :: negParts c k (unitTerms xs)
  | .pbc c k ts => .pbc c k ts :: negParts c k ts
  | _ => []
def pbsL : List (Fm α) → List (Fm α)
  | [] => []
  | f :: fs => pbs f ++ pbsL fs
end
omit [DecidableEq α] in
theorem pbsL_eq (fs : List (Fm α)) : pbsL fs = fs.flatMap pbs := by
  induction fs with
  | nil => rfl
  | cons f fs ih => simp [pbsL, ih]
omit [DecidableEq α] in
@[simp] theorem pbs_not (f : Fm α) : pbs (.not f) = pbs f := by simp [pbs]
omit [DecidableEq α] in
@[simp] theorem pbs_and (fs : List (Fm α)) : pbs (.and fs) = fs.flatMap pbs := by simp [pbs, pbsL_eq]
omit [DecidableEq α] in
@[simp] theorem pbs_or (fs : List (Fm α)) : pbs (.or fs) = fs.flatMap pbs := by simp [pbs, pbsL_eq]
omit [DecidableEq α] in
@[simp] theorem pbs_impl (f g : Fm α) : pbs (.impl f g) = pbs f ++ pbs g := by simp [pbs]
omit [DecidableEq α] in
@[simp] theorem pbs_equiv (f g : Fm α) : pbs (.equiv f g) = pbs f ++ pbs g := by simp [pbs]
omit [DecidableEq α] in
@[simp] theorem pbs_cc (c : Cmp) (k : Int) (xs : List α) : pbs (.cc c k xs) = .cc c k xs :: negParts c k (unitTerms xs) := by simp [pbs]
omit [DecidableEq α] in
@[simp] theorem pbs_pbc (c : Cmp) (k : Int) (ts : List (Int × Lit α)) : pbs (.pbc c k ts) = .pbc c k ts :: negParts c k ts := by simp [pbs]

omit [DecidableEq α] in
theorem pbs_pbFree (f : Fm α) (h : f.pbFree = true) : pbs f = [] := by
  induction f using Fm.ind with
  | hf => simp [pbs]
  | ht => simp [pbs]
  | hl l => simp [pbs]
  | hn f ih => simp at h; simp [ih h]
  | ha fs ih =>
    simp only [Fm.pbFree_and, List.all_eq_true] at h
    simp only [pbs_and, List.flatMap_eq_nil_iff]
    exact fun f hf => ih f hf (h f hf)
  | ho fs ih =>
    simp only [Fm.pbFree_or, List.all_eq_true] at h
    simp only [pbs_or, List.flatMap_eq_nil_iff]
    exact fun f hf => ih f hf (h f hf)
  | hi f g h1 h2 => simp at h; simp [h1 h.1, h2 h.2]
  | he f g h1 h2 => simp at h; simp [h1 h.1, h2 h.2]
  | hc c k xs => simp at h
  | hp c k ts => simp at h

omit [DecidableEq α] in
theorem isPB_tPBC (c : Cmp) (k : Int) (ts : List (Int × Lit α)) : tPBC c k ts = .tru ∨ tPBC c k ts = .fls ∨ isPB (tPBC c k ts) = true := by
  unfold tPBC tConst
  repeat' split
  all_goals simp [isPB]

omit [DecidableEq α] in
theorem linSum_unit (v : α → Bool) : ∀ xs : List α, linSum v (unitTerms xs) = cntTrue v xs
  | [] => rfl
  | x :: xs => by
    have := linSum_unit v xs
    unfold unitTerms at *
    simp only [List.map_cons, linSum, cntTrue, Lit.eval, if_true, this]

/-- shape of a negated constraint -/
def NegShape (ps : List (Fm α)) (g : Fm α) : Prop := g = .tru ∨ g = .fls ∨ (isPB g = true ∧ g ∈ ps)

theorem negatePBC_shape (cons : Bool) (c : Cmp) (k : Int) (ts : List (Int × Lit α)) :
    NegShape (negParts c k ts) (negatePBC cons c k ts) ∨
      ∃ fs, negatePBC cons c k ts = .or fs ∧ ∀ f ∈ fs, NegShape (negParts c k ts) f := by
  have one : ∀ c' ps, tPBC c' k ts ∈ ps → NegShape ps (tPBC c' k ts) := by
    intro c' ps h
    rcases isPB_tPBC c' k ts with h' | h' | h'
    · exact .inl h'
    · exact .inr (.inl h')
    · exact .inr (.inr ⟨h', h⟩)
  cases c with
  | eq =>
    have key : ∀ g, OrOp [tPBC .lt k ts, tPBC .gt k ts] g → NegShape (negParts .eq k ts) g := by
      rintro g ⟨h1, h2, h3⟩
      rcases h3 with ⟨h3, _⟩ | ⟨gs, h3, _⟩
      · simp only [List.mem_cons, List.not_mem_nil, or_false] at h3
        rcases h3 with rfl | rfl
        · exact one _ _ (by simp [negParts])
        · exact one _ _ (by simp [negParts])
      · simp only [List.mem_cons, List.not_mem_nil, or_false] at h3
        rcases h3 with h3 | h3
        · rcases isPB_tPBC .lt k ts with h | h | h <;> rw [← h3] at h <;> simp [isPB] at h
        · rcases isPB_tPBC .gt k ts with h | h | h <;> rw [← h3] at h <;> simp [isPB] at h
    refine tOr_elim (P := fun g => NegShape (negParts .eq k ts) g ∨ ∃ fs, g = .or fs ∧ ∀ f ∈ fs, NegShape (negParts .eq k ts) f)
      (.inl (.inl rfl)) (.inl (.inr (.inl rfl))) (fun g hg => .inl (key g hg)) ?_
    intro a _ _ h
    exact .inr ⟨a, rfl, fun f hf => key f (h f hf)⟩
  | le => exact .inl (one _ _ (by simp [negParts]))
  | lt => exact .inl (one _ _ (by simp [negParts]))
  | ge => exact .inl (one _ _ (by simp [negParts]))
  | gt => exact .inl (one _ _ (by simp [negParts]))

theorem eval_negatePBC (cons : Bool) (v : α → Bool) (c : Cmp) (k : Int) (ts : List (Int × Lit α)) :
    (negatePBC cons c k ts).eval v = !(c.holds (linSum v ts) k) := by
  rw [Bool.eq_iff_iff]
  cases c <;> simp [negatePBC, Cmp.holds] <;> omega

/-- nnf.go:91-100 on a constraint or constant -/
def encC (enc : Fm α → Fm α) : Fm α → Fm α
  | .tru => .tru
  | .fls => .fls
  | f => enc f

theorem nnfPB_or (cons : Bool) (enc : Fm α → Fm α) (fs : List (Fm α)) :
    nnfPB cons enc (.or fs) = tOr cons (fs.map (encC enc)) := by
  simp only [nnfPB]
  congr 1
theorem nnfPB_neg {cons : Bool} {enc : Fm α → Fm α} {ps : List (Fm α)} {f : Fm α} (h : NegShape ps f) :
    nnfPB cons enc f = encC enc f := by
  rcases h with rfl | rfl | ⟨h, _⟩
  · rfl
  · rfl
  · cases f <;> simp [isPB] at h <;> rfl
omit [DecidableEq α] in
theorem encC_isPB {enc : Fm α → Fm α} {f : Fm α} (h : isPB f = true) : encC enc f = enc f := by
  cases f <;> simp [isPB] at h <;> rfl

theorem nnfPB_sound {cons : Bool} {enc : Fm α → Fm α} {v : α → Bool} {c : Cmp} {k : Int} {ts : List (Int × Lit α)}
    (he : ∀ g ∈ negParts c k ts, isPB g = true → (enc g).eval v = true → g.eval v = true)
    (h : (nnfPB cons enc (negatePBC cons c k ts)).eval v = true) : c.holds (linSum v ts) k = false := by
  have one : ∀ g, NegShape (negParts c k ts) g → (encC enc g).eval v = true → g.eval v = true := by
    rintro g (rfl | rfl | ⟨h1, h2⟩) h
    · simp
    · simp [encC] at h
    · rw [encC_isPB h1] at h; exact he g h2 h1 h
  have : (negatePBC cons c k ts).eval v = true := by
    rcases negatePBC_shape cons c k ts with h' | ⟨fs, e, h'⟩
    · rw [nnfPB_neg h'] at h; exact one _ h' h
    · rw [e, nnfPB_or, eval_tOr, List.any_map, List.any_eq_true] at h
      rw [e, Fm.eval_or, List.any_eq_true]
      obtain ⟨f, hf, h⟩ := h
      exact ⟨f, hf, one f (h' f hf) h⟩
  rw [eval_negatePBC] at this
  simpa using this

theorem nnfPB_complete {cons : Bool} {enc : Fm α → Fm α} {v : α → Bool} {c : Cmp} {k : Int} {ts : List (Int × Lit α)}
    (he : ∀ g ∈ negParts c k ts, isPB g = true → g.eval v = true → (enc g).eval v = true)
    (h : c.holds (linSum v ts) k = false) : (nnfPB cons enc (negatePBC cons c k ts)).eval v = true := by
  have one : ∀ g, NegShape (negParts c k ts) g → g.eval v = true → (encC enc g).eval v = true := by
    rintro g (rfl | rfl | ⟨h1, h2⟩) h
    · simp [encC]
    · simp at h
    · rw [encC_isPB h1]; exact he g h2 h1 h
  have h2 : (negatePBC cons c k ts).eval v = true := by rw [eval_negatePBC, h]; rfl
  rcases negatePBC_shape cons c k ts with h' | ⟨fs, e, h'⟩
  · rw [nnfPB_neg h']; exact one _ h' h2
  · rw [e, nnfPB_or, eval_tOr, List.any_map, List.any_eq_true]
    rw [e, Fm.eval_or, List.any_eq_true] at h2
    obtain ⟨f, hf, h⟩ := h2
    exact ⟨f, hf, one f (h' f hf) h⟩

theorem nnfPB_core {cons : Bool} {enc : Fm α → Fm α} {c : Cmp} {k : Int} {ts : List (Int × Lit α)}
    (he : ∀ g ∈ negParts c k ts, isPB g = true → CoreC (enc g)) : CoreC (nnfPB cons enc (negatePBC cons c k ts)) := by
  have one : ∀ g, NegShape (negParts c k ts) g → CoreC (encC enc g) := by
    rintro g (rfl | rfl | ⟨h1, h2⟩)
    · exact .inl rfl
    · exact .inr (.inl rfl)
    · rw [encC_isPB h1]; exact he g h2 h1
  rcases negatePBC_shape cons c k ts with h' | ⟨fs, e, h'⟩
  · rw [nnfPB_neg h']; exact one _ h'
  · rw [e, nnfPB_or]
    refine CoreC.tOr ?_
    intro g hg
    obtain ⟨f, hf, rfl⟩ := List.mem_map.1 hg
    exact one f (h' f hf)

/-! ### NNF -/

theorem nnfL_eq (cons : Bool) (enc : Fm α → Fm α) (p : Bool) : ∀ fs, nnfL cons enc fs p = fs.map (fun f => nnf cons enc f p)
  | [] => by simp [nnfL]
  | f :: fs => by simp [nnfL, nnfL_eq cons enc p fs]

theorem nnf_core {cons : Bool} {enc : Fm α → Fm α} (f : Fm α) (he : ∀ g ∈ pbs f, isPB g = true → CoreC (enc g)) :
    ∀ p, CoreC (nnf cons enc f p) := by
  induction f using Fm.ind with
  | hf => intro p; rw [nnf]; cases p <;> simp [CoreC, tNot]
  | ht => intro p; rw [nnf]; cases p <;> simp [CoreC, tNot]
  | hl l => intro p; rw [nnf]; cases p <;> simp [CoreC, tNot]
  | hn f ih => intro p; rw [nnf]; exact ih (by simpa using he) _
  | ha fs ih =>
    intro p
    rw [nnf, nnfL_eq]
    have : ∀ g ∈ fs.map (fun f => nnf cons enc f p), CoreC g := by
      intro g hg
      obtain ⟨f, hf, rfl⟩ := List.mem_map.1 hg
      exact ih f hf (fun g hg => he g (by simp only [pbs_and, List.mem_flatMap]; exact ⟨f, hf, hg⟩)) p
    split
    · exact .tAnd this
    · exact .tOr this
  | ho fs ih =>
    intro p
    rw [nnf, nnfL_eq]
    have : ∀ g ∈ fs.map (fun f => nnf cons enc f p), CoreC g := by
      intro g hg
      obtain ⟨f, hf, rfl⟩ := List.mem_map.1 hg
      exact ih f hf (fun g hg => he g (by simp only [pbs_or, List.mem_flatMap]; exact ⟨f, hf, hg⟩)) p
    split
    · exact .tOr this
    · exact .tAnd this
  | hi f g h1 h2 =>
    intro p
    have h1 := h1 fun g hg => he g (by simp [hg])
    have h2 := h2 fun g hg => he g (by simp [hg])
    rw [nnf]
    split
    · exact .tOr (by simp [h1, h2])
    · exact .tAnd (by simp [h1, h2])
  | he f g h1 h2 =>
    intro p
    have h1 := h1 fun g hg => he g (by simp [hg])
    have h2 := h2 fun g hg => he g (by simp [hg])
    have o : ∀ p q, CoreC (tOr cons [nnf cons enc f p, nnf cons enc g q]) := fun p q => .tOr (by simp [h1, h2])
    rw [nnf]
    split
    · exact .tAnd (by simp [o])
    · exact .tAnd (by simp [o])
  | hc c k xs =>
    intro p
    rw [nnf]
    split
    · exact he _ (by simp) rfl
    · exact nnfPB_core fun g hg h => he g (by simp [hg]) h
  | hp c k ts =>
    intro p
    rw [nnf]
    split
    · exact he _ (by simp) rfl
    · exact nnfPB_core fun g hg h => he g (by simp [hg]) h

theorem nnf_sound {cons : Bool} {enc : Fm α → Fm α} {v : α → Bool} (f : Fm α)
    (he : ∀ g ∈ pbs f, isPB g = true → (enc g).eval v = true → g.eval v = true) :
    ∀ p, (nnf cons enc f p).eval v = true → f.eval v = p := by
  induction f using Fm.ind with
  | hf => intro p; rw [nnf]; cases p <;> simp
  | ht => intro p; rw [nnf]; cases p <;> simp
  | hl l => intro p; rw [nnf]; cases p <;> simp
  | hn f ih => intro p h; rw [nnf] at h; have := ih (by simpa using he) _ h; simp [this]
  | ha fs ih =>
    intro p h
    have ih' : ∀ f ∈ fs, (nnf cons enc f p).eval v = true → f.eval v = p := fun f hf =>
      ih f hf (fun g hg => he g (by simp only [pbs_and, List.mem_flatMap]; exact ⟨f, hf, hg⟩)) p
    rw [nnf, nnfL_eq] at h
    cases p with
    | true =>
      simp only [if_true, eval_tAnd, List.all_map, List.all_eq_true] at h
      simp only [Fm.eval_and, List.all_eq_true]
      exact fun f hf => ih' f hf (h f hf)
    | false =>
      simp only [Bool.false_eq_true, if_false, eval_tOr, List.any_map, List.any_eq_true] at h
      obtain ⟨f, hf, h⟩ := h
      simp only [Fm.eval_and, List.all_eq_false]
      exact ⟨f, hf, by simp [ih' f hf h]⟩
  | ho fs ih =>
    intro p h
    have ih' : ∀ f ∈ fs, (nnf cons enc f p).eval v = true → f.eval v = p := fun f hf =>
      ih f hf (fun g hg => he g (by simp only [pbs_or, List.mem_flatMap]; exact ⟨f, hf, hg⟩)) p
    rw [nnf, nnfL_eq] at h
    cases p with
    | true =>
      simp only [if_true, eval_tOr, List.any_map, List.any_eq_true] at h
      obtain ⟨f, hf, h⟩ := h
      simp only [Fm.eval_or, List.any_eq_true]
      exact ⟨f, hf, ih' f hf h⟩
    | false =>
      simp only [Bool.false_eq_true, if_false, eval_tAnd, List.all_map, List.all_eq_true] at h
      simp only [Fm.eval_or, List.any_eq_false]
      exact fun f hf => by simp [ih' f hf (h f hf)]
  | hi f g h1 h2 =>
    intro p h
    have h1 := h1 fun g hg => he g (by simp [hg])
    have h2 := h2 fun g hg => he g (by simp [hg])
    rw [nnf] at h
    cases p with
    | true =>
      simp only [if_true, eval_tOr, List.any_cons, List.any_nil, Bool.or_false, Bool.or_eq_true] at h
      rcases h with h | h
      · simp [h1 _ h]
      · simp [h2 _ h]
    | false =>
      simp only [Bool.false_eq_true, if_false, eval_tAnd, List.all_cons, List.all_nil, Bool.and_true, Bool.and_eq_true] at h
      simp [h1 _ h.1, h2 _ h.2]
  | he f g h1 h2 =>
    intro p h
    have h1 := h1 fun g hg => he g (by simp [hg])
    have h2 := h2 fun g hg => he g (by simp [hg])
    rw [nnf] at h
    cases p with
    | true =>
      simp only [if_true, eval_tAnd, eval_tOr, List.all_cons, List.all_nil, Bool.and_true, List.any_cons, List.any_nil, Bool.or_false,
        Bool.and_eq_true, Bool.or_eq_true] at h
      rcases h with ⟨h | h, h' | h'⟩ <;> first | simp [h1 _ h, h2 _ h'] | simp [h2 _ h, h1 _ h'] | (have a := h1 _ h; have b := h1 _ h'; simp [a] at b) | (have a := h2 _ h; have b := h2 _ h'; simp [a] at b)
    | false =>
      simp only [Bool.false_eq_true, if_false, eval_tAnd, eval_tOr, List.all_cons, List.all_nil, Bool.and_true, List.any_cons, List.any_nil,
        Bool.or_false, Bool.and_eq_true, Bool.or_eq_true] at h
      rcases h with ⟨h | h, h' | h'⟩ <;> first | simp [h1 _ h, h2 _ h'] | simp [h2 _ h, h1 _ h'] | (have a := h1 _ h; have b := h1 _ h'; simp [a] at b) | (have a := h2 _ h; have b := h2 _ h'; simp [a] at b)
  | hc c k xs =>
    intro p h
    rw [nnf] at h
    cases p with
    | true => exact he _ (by simp) rfl (by simpa using h)
    | false =>
      rw [Fm.eval_cc, ← linSum_unit]
      exact nnfPB_sound (fun g hg h => he g (by simp [hg]) h) (by simpa using h)
  | hp c k ts =>
    intro p h
    rw [nnf] at h
    cases p with
    | true => exact he _ (by simp) rfl (by simpa using h)
    | false =>
      rw [Fm.eval_pbc]
      exact nnfPB_sound (fun g hg h => he g (by simp [hg]) h) (by simpa using h)

theorem nnf_complete {cons : Bool} {enc : Fm α → Fm α} {v : α → Bool} (f : Fm α)
    (he : ∀ g ∈ pbs f, isPB g = true → g.eval v = true → (enc g).eval v = true) :
    ∀ p, f.eval v = p → (nnf cons enc f p).eval v = true := by
  induction f using Fm.ind with
  | hf => intro p; rw [nnf]; cases p <;> simp
  | ht => intro p; rw [nnf]; cases p <;> simp
  | hl l => intro p; rw [nnf]; cases p <;> simp
  | hn f ih => intro p h; rw [nnf]; exact ih (by simpa using he) _ (by simp at h; simp [← h])
  | ha fs ih =>
    intro p h
    have ih' : ∀ f ∈ fs, f.eval v = p → (nnf cons enc f p).eval v = true := fun f hf =>
      ih f hf (fun g hg => he g (by simp only [pbs_and, List.mem_flatMap]; exact ⟨f, hf, hg⟩)) p
    rw [nnf, nnfL_eq]
    cases p with
    | true =>
      simp only [if_true, eval_tAnd, List.all_map, List.all_eq_true]
      simp only [Fm.eval_and, List.all_eq_true] at h
      exact fun f hf => ih' f hf (h f hf)
    | false =>
      simp only [Bool.false_eq_true, if_false, eval_tOr, List.any_map, List.any_eq_true]
      simp only [Fm.eval_and, List.all_eq_false] at h
      obtain ⟨f, hf, h⟩ := h
      exact ⟨f, hf, ih' f hf (by simpa using h)⟩
  | ho fs ih =>
    intro p h
    have ih' : ∀ f ∈ fs, f.eval v = p → (nnf cons enc f p).eval v = true := fun f hf =>
      ih f hf (fun g hg => he g (by simp only [pbs_or, List.mem_flatMap]; exact ⟨f, hf, hg⟩)) p
    rw [nnf, nnfL_eq]
    cases p with
    | true =>
      simp only [if_true, eval_tOr, List.any_map, List.any_eq_true]
      simp only [Fm.eval_or, List.any_eq_true] at h
      obtain ⟨f, hf, h⟩ := h
      exact ⟨f, hf, ih' f hf h⟩
    | false =>
      simp only [Bool.false_eq_true, if_false, eval_tAnd, List.all_map, List.all_eq_true]
      simp only [Fm.eval_or, List.any_eq_false] at h
      exact fun f hf => ih' f hf (by simpa using h f hf)
  | hi f g h1 h2 =>
    intro p h
    have h1 := h1 fun g hg => he g (by simp [hg])
    have h2 := h2 fun g hg => he g (by simp [hg])
    rw [nnf]
    simp only [Fm.eval_impl] at h
    have h1 := h1 _ rfl
    have h2 := h2 _ rfl
    cases p <;> cases hf : f.eval v <;> cases hg : g.eval v <;> simp [hf, hg] at h h1 h2 <;> simp [h1, h2]
  | he f g h1 h2 =>
    intro p h
    have h1 := h1 fun g hg => he g (by simp [hg])
    have h2 := h2 fun g hg => he g (by simp [hg])
    rw [nnf]
    simp only [Fm.eval_equiv] at h
    have h1 := h1 _ rfl
    have h2 := h2 _ rfl
    cases p <;> cases hf : f.eval v <;> cases hg : g.eval v <;> simp [hf, hg] at h h1 h2 <;> simp [h1, h2]
  | hc c k xs =>
    intro p h
    rw [nnf]
    cases p with
    | true => simpa using he _ (by simp) rfl h
    | false =>
      rw [Fm.eval_cc, ← linSum_unit] at h
      simpa using nnfPB_complete (fun g hg h => he g (by simp [hg]) h) h
  | hp c k ts =>
    intro p h
    rw [nnf]
    cases p with
    | true => simpa using he _ (by simp) rfl h
    | false =>
      rw [Fm.eval_pbc] at h
      simpa using nnfPB_complete (fun g hg h => he g (by simp [hg]) h) h

theorem nnf_eval {cons : Bool} {enc : Fm α → Fm α} (f : Fm α) (h : f.pbFree = true) (v : α → Bool) (p : Bool) :
    (nnf cons enc f p).eval v = (f.eval v == p) := by
  have hp := pbs_pbFree f h
  have h1 := nnf_sound (cons := cons) (enc := enc) (v := v) f (by simp [hp]) p
  have h2 := nnf_complete (cons := cons) (enc := enc) (v := v) f (by simp [hp]) p
  cases h3 : (nnf cons enc f p).eval v <;> cases h4 : (f.eval v == p) <;> simp [h3] at h1 h2 h4 ⊢
  · exact h2 h4
  · exact absurd h1 h4

theorem nnf_pbFree_core {cons : Bool} {enc : Fm α → Fm α} (f : Fm α) (h : f.pbFree = true) (p : Bool) : CoreC (nnf cons enc f p) :=
  nnf_core f (by simp [pbs_pbFree f h]) p

end Verif.NF
