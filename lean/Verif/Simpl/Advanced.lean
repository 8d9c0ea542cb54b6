import Verif.Simpl.Props
import Verif.Prime.Props
import Verif.Explain.Smus
/-
C36: the advanced simplifier and Quine-McCluskey (simplification/advanced.go), composed of the computations of C22 (backbone), C37 (prime implicants), C29 (SMUS)
and of the simplifiers of `Model.lean`.
-/
namespace Verif.Simpl
open Verif Verif.Tree Verif.Prime Verif.Explain Verif.Opt
set_option linter.unusedSectionVars false
variable {α : Type} [DecidableEq α]

/-- simplification/advanced.go:14-23 `Config`, without the rating -/
structure Cfg where
  factorOut : Bool
  restrictBackbone : Bool
  simplifyNegations : Bool
  useRating : Bool

/-- what the simplifier calls: the handler on the start event, the backbone of a formula, the prime implicants, the SMUS, the order of sets of literals,
the comparison of ratings (`less f g`: the rating of `f` is smaller), the encoding of constraints in the NNF and the length of printed formulas -/
structure Env (α : Type) where
  start : Bool
  backbone : Fm α → Option (BB α)
  prime : Prime.Orc α
  nv : Lit α → α
  old : α → Lit α
  smusStart : Bool
  call0 : SatOracle α
  psel : Nat → α
  osel : Nat → α
  ord : List α → List α
  envH : Nat → OptEnv α
  envG : Nat → OptEnv α
  ordL : List (Lit α) → List (Lit α)
  less : Fm α → Fm α → Bool
  enc : Fm α → Fm α
  len : Fm α → Nat

/-- how the simplification ends -/
inductive ARes (α : Type)
  | ok (f : Fm α)
  | canceled
  | panic
  /-- the model of the prime implicant computation ran out of fuel -/
  | fuel

/-- simplification/advanced.go:187-197 `negateAllLiterals` as propositions (explanation/smus/smus.go:35-38) -/
def negateAll (cons : Bool) (ps : List (List (Lit α))) : List (Prp α) :=
  ps.zipIdx.map fun p => ⟨p.2, tOr cons ((p.1.map Lit.neg).map .lit)⟩

/-- simplification/advanced.go:203-207 -/
def backTerm (ordL : List (Lit α) → List (Lit α)) (g : Fm α) : List (Lit α) := (ordL (Prime.lits g).dedup).map Lit.neg

/-- simplification/advanced.go:162-185 `computeMinDNF` -/
def computeMinDNF (cons : Bool) (e : Env α) (fuel : Nat) (f : Fm α) : ARes α :=
  match Prime.compute e.prime cons true false e.nv e.old fuel f with
  | .canceled => .canceled
  | .fuel => .fuel
  | .ok primes _ =>
    match Explain.smus cons e.smusStart e.call0 e.psel e.osel e.ord e.envH e.envG [f] (negateAll cons primes) with
    | .ok none => .ok (tOr cons [])
    | .ok (some r) => .ok (tOr cons (r.map fun p => tMinterm (backTerm e.ordL p.fm)))
    | .canceled => .canceled
    | _ => .panic

/-- simplification/advanced.go:212-222 `simplifyWithRating` -/
def withRating (less : Fm α → Fm α → Bool) (useRating : Bool) (f g : Fm α) : Fm α :=
  if !useRating then g else if less g f then g else f

/-- simplification/advanced.go:134-148, after the DNF -/
def finishAdvanced (cons : Bool) (e : Env α) (cfg : Cfg) (bb : List (Lit α)) (s : Fm α) : ARes α :=
  let s? := if cfg.factorOut then (factorOut cons e.less (leaves s + 1) s).map (withRating e.less cfg.useRating s) else some s
  match s? with
  | none => .panic
  | some s =>
    let s := if cfg.restrictBackbone then tAnd cons [tMinterm bb, s] else s
    if cfg.simplifyNegations then
      match minimizeNegations cons e.enc e.len s with
      | none => .panic
      | some g => .ok (withRating e.less cfg.useRating s g)
    else .ok s

/-- simplification/advanced.go:126-134 -/
def advancedRest (cons : Bool) (e : Env α) (cfg : Cfg) (fuel : Nat) (bb : List (Lit α)) (s : Fm α) : ARes α :=
  match computeMinDNF cons e fuel s with
  | .ok g => finishAdvanced cons e cfg bb (withRating e.less cfg.useRating s g)
  | r => r

/-- simplification/advanced.go:99-150 `AdvancedWithHandler` -/
def advanced (cons : Bool) (e : Env α) (cfg : Cfg) (fuel : Nat) (f : Fm α) : ARes α :=
  if !e.start then .canceled
  else if cfg.restrictBackbone then
    match e.backbone f with
    | none => .canceled
    | some none => .ok .fls
    | some (some b) =>
      let ass := (completeBackbone b).foldl (fun a l => (Assignment.addLit a l).getD a) Assignment.empty
      advancedRest cons e cfg fuel (completeBackbone b) (Assignment.restrict cons ass f)
  else advancedRest cons e cfg fuel [] f

/-- simplification/advanced.go:57-73 `QMCWithHandler` -/
def qmc (cons : Bool) (e : Env α) (fuel : Nat) (f : Fm α) : ARes α := advanced cons e ⟨false, false, false, false⟩ fuel f

/-! ### formulas without constraints -/

theorem pbFree_tNot {f : Fm α} (h : f.pbFree = true) : (tNot f).pbFree = true := by cases f <;> simp_all [tNot]
theorem pbFree_tAnd {cons : Bool} {fs : List (Fm α)} (h : ∀ f ∈ fs, f.pbFree = true) : (tAnd cons fs).pbFree = true := by
  have key : ∀ g, AndOp fs g → g.pbFree = true := by
    rintro g ⟨_, _, h1 | ⟨gs, h1, h2⟩⟩
    · exact h g h1.1
    · have := h _ h1
      rw [Fm.pbFree_and, List.all_eq_true] at this
      exact this g h2
  exact tAnd_elim (P := fun g => g.pbFree = true) (by simp) (by simp) key fun a _ _ ha => by
    rw [Fm.pbFree_and, List.all_eq_true]; exact fun g hg => key g (ha g hg)
theorem pbFree_tOr {cons : Bool} {fs : List (Fm α)} (h : ∀ f ∈ fs, f.pbFree = true) : (tOr cons fs).pbFree = true := by
  have key : ∀ g, OrOp fs g → g.pbFree = true := by
    rintro g ⟨_, _, h1 | ⟨gs, h1, h2⟩⟩
    · exact h g h1.1
    · have := h _ h1
      rw [Fm.pbFree_or, List.all_eq_true] at this
      exact this g h2
  exact tOr_elim (P := fun g => g.pbFree = true) (by simp) (by simp) key fun a _ _ ha => by
    rw [Fm.pbFree_or, List.all_eq_true]; exact fun g hg => key g (ha g hg)
theorem pbFree_nary {cons d : Bool} {fs : List (Fm α)} (h : ∀ f ∈ fs, f.pbFree = true) : (nary cons d fs).pbFree = true := by
  unfold nary
  split
  · exact pbFree_tAnd h
  · exact pbFree_tOr h
theorem pbFree_tMinterm (ls : List (Lit α)) : (tMinterm ls).pbFree = true := by
  unfold tMinterm
  split <;> simp
theorem pbFree_tImpl {cons : Bool} {f g : Fm α} (hf : f.pbFree = true) (hg : g.pbFree = true) : (tImpl cons f g).pbFree = true := by
  unfold tImpl
  split
  · simp
  split
  · exact hg
  split
  · exact pbFree_tNot hf
  split <;> simp [hf, hg]
theorem pbFree_tEquiv {cons : Bool} {f g : Fm α} (hf : f.pbFree = true) (hg : g.pbFree = true) : (tEquiv cons f g).pbFree = true := by
  unfold tEquiv
  split
  · exact hg
  split
  · exact hf
  split
  · exact pbFree_tNot hg
  split
  · exact pbFree_tNot hf
  split
  · simp
  split <;> simp [hf, hg]

mutual
theorem pbFree_restrict {cons : Bool} {a : Assignment.Asg α} : ∀ (f : Fm α), f.pbFree = true → (Assignment.restrict cons a f).pbFree = true
  | .tru, _ => by simp [Assignment.restrict]
  | .fls, _ => by simp [Assignment.restrict]
  | .lit l, _ => by rw [Assignment.restrict]; unfold Assignment.restrictLit; split <;> split <;> (try split) <;> simp
  | .not f, h => by rw [Assignment.restrict]; exact pbFree_tNot (pbFree_restrict f (by simpa using h))
  | .impl f g, h => by
    rw [Fm.pbFree_impl, Bool.and_eq_true] at h
    rw [Assignment.restrict]; exact pbFree_tImpl (pbFree_restrict f h.1) (pbFree_restrict g h.2)
  | .equiv f g, h => by
    rw [Fm.pbFree_equiv, Bool.and_eq_true] at h
    rw [Assignment.restrict]; exact pbFree_tEquiv (pbFree_restrict f h.1) (pbFree_restrict g h.2)
  | .and fs, h => by
    rw [Fm.pbFree_and, List.all_eq_true] at h
    rw [Assignment.restrict]; exact pbFree_tAnd (pbFree_restrictL fs h)
  | .or fs, h => by
    rw [Fm.pbFree_or, List.all_eq_true] at h
    rw [Assignment.restrict]; exact pbFree_tOr (pbFree_restrictL fs h)
  | .cc c k xs, h => by simp at h
  | .pbc c k ts, h => by simp at h
theorem pbFree_restrictL {cons : Bool} {a : Assignment.Asg α} : ∀ (fs : List (Fm α)), (∀ f ∈ fs, f.pbFree = true) → ∀ g ∈ Assignment.restrictL cons a fs, g.pbFree = true
  | [], _, g, hg => by simp [Assignment.restrictL] at hg
  | f :: fs, h, g, hg => by
    rw [Assignment.restrictL] at hg
    rcases List.mem_cons.1 hg with rfl | hg
    · exact pbFree_restrict f (h f List.mem_cons_self)
    · exact pbFree_restrictL fs (fun f hf => h f (List.mem_cons_of_mem _ hf)) g hg
end

theorem flat_tPBC (c : Cmp) (k : Int) (ts : List (Int × Lit α)) : Flat (tPBC c k ts) := by
  unfold tPBC
  split
  · unfold tConst; split <;> constructor
  split <;> constructor
theorem flat_restrictPBC {a : Assignment.Asg α} (c : Cmp) (k : Int) (ts : List (Int × Lit α)) : Flat (Assignment.restrictPBC a c k ts) := by
  unfold Assignment.restrictPBC
  dsimp only
  split
  · unfold tConst; split <;> constructor
  split
  · split
    · constructor
    · constructor
    · exact flat_tPBC ..
  · exact flat_tPBC ..
mutual
theorem flat_restrict {cons : Bool} {a : Assignment.Asg α} : ∀ (f : Fm α), Flat (Assignment.restrict cons a f)
  | .tru => by rw [Assignment.restrict]; constructor
  | .fls => by rw [Assignment.restrict]; constructor
  | .lit l => by rw [Assignment.restrict]; unfold Assignment.restrictLit; split <;> split <;> (try split) <;> constructor
  | .not f => by rw [Assignment.restrict]; exact flat_tNot (flat_restrict f)
  | .impl f g => by rw [Assignment.restrict]; exact flat_tImpl (flat_restrict f) (flat_restrict g)
  | .equiv f g => by rw [Assignment.restrict]; exact flat_tEquiv (flat_restrict f) (flat_restrict g)
  | .and fs => by rw [Assignment.restrict]; exact flat_tAnd (flat_restrictL fs)
  | .or fs => by rw [Assignment.restrict]; exact flat_tOr (flat_restrictL fs)
  | .cc c k xs => by rw [Assignment.restrict]; exact flat_restrictPBC ..
  | .pbc c k ts => by rw [Assignment.restrict]; exact flat_restrictPBC ..
theorem flat_restrictL {cons : Bool} {a : Assignment.Asg α} : ∀ (fs : List (Fm α)), ∀ g ∈ Assignment.restrictL cons a fs, Flat g
  | [], g, hg => by simp [Assignment.restrictL] at hg
  | f :: fs, g, hg => by
    rw [Assignment.restrictL] at hg
    rcases List.mem_cons.1 hg with rfl | hg
    · exact flat_restrict f
    · exact flat_restrictL fs g hg
end

theorem factorFold_pbFree {cons d : Bool} {x : Fm α} : ∀ (ops : List (Fm α)) (r : List (Fm α) × List (Fm α)), (∀ op ∈ ops, op.pbFree = true) →
    (∀ g ∈ r.1 ++ r.2, g.pbFree = true) → ∀ g ∈ (ops.foldl (factorStep cons d x) r).1 ++ (ops.foldl (factorStep cons d x) r).2, g.pbFree = true
  | [], r, _, hr => hr
  | op :: ops, r, h, hr => by
    rw [List.foldl_cons]
    refine factorFold_pbFree ops _ (fun o ho => h o (List.mem_cons_of_mem _ ho)) ?_
    have hop := h op List.mem_cons_self
    have hap : ∀ (d' : Bool) (gs : List (Fm α)), (∀ g ∈ gs, g.pbFree = true) → (nary cons d' (gs.filter fun g => g ≠ x)).pbFree = true :=
      fun d' gs hg => pbFree_nary fun g hgm => hg g (List.mem_filter.1 hgm).1
    simp only [List.mem_append] at hr
    cases op with
    | lit l =>
      simp only [factorStep]
      split <;> intro g hg <;> simp only [List.mem_append, List.mem_singleton] at hg
      · rcases hg with (hg | rfl) | hg
        · exact hr g (.inl hg)
        · unfold tConst; split <;> simp
        · exact hr g (.inr hg)
      · rcases hg with hg | hg | rfl
        · exact hr g (.inl hg)
        · exact hr g (.inr hg)
        · simp
    | and gs =>
      rw [Fm.pbFree_and, List.all_eq_true] at hop
      simp only [factorStep]
      split <;> intro g hg <;> simp only [List.mem_append, List.mem_singleton] at hg
      · rcases hg with (hg | rfl) | hg
        · exact hr g (.inl hg)
        · exact hap true gs hop
        · exact hr g (.inr hg)
      · rcases hg with hg | hg | rfl
        · exact hr g (.inl hg)
        · exact hr g (.inr hg)
        · exact hap true gs hop
    | or gs =>
      rw [Fm.pbFree_or, List.all_eq_true] at hop
      simp only [factorStep]
      split <;> intro g hg <;> simp only [List.mem_append, List.mem_singleton] at hg
      · rcases hg with (hg | rfl) | hg
        · exact hr g (.inl hg)
        · exact hap false gs hop
        · exact hr g (.inr hg)
      · rcases hg with hg | hg | rfl
        · exact hr g (.inl hg)
        · exact hr g (.inr hg)
        · exact hap false gs hop
    | _ =>
      simp only [factorStep]
      intro g hg
      simp only [List.mem_append, List.mem_singleton] at hg
      rcases hg with hg | hg | rfl
      · exact hr g (.inl hg)
      · exact hr g (.inr hg)
      · exact hop

theorem countedIn_pbFree {op g : Fm α} (h : op.pbFree = true) (hg : g ∈ countedIn op) : g.pbFree = true := by
  cases op <;> simp only [countedIn, List.mem_singleton, List.not_mem_nil] at hg
  · subst hg; simp
  · rw [Fm.pbFree_and, List.all_eq_true] at h; exact h g hg
  · rw [Fm.pbFree_or, List.all_eq_true] at h; exact h g hg
theorem factorOutOps_pbFree {cons d : Bool} {ops : List (Fm α)} {g : Fm α} (h : ∀ op ∈ ops, op.pbFree = true) (hg : factorOutOps cons d ops = some g) :
    g.pbFree = true := by
  unfold factorOutOps at hg
  cases hx : maxOccurring ops with
  | none => rw [hx] at hg; cases hg
  | some x =>
    rw [hx] at hg
    simp only [Option.some.injEq] at hg
    have hxp : x.pbFree = true := by
      have := maxOccurring_spec hx
      obtain ⟨op, hop, hm⟩ := List.mem_flatMap.1 (List.count_pos_iff.1 (show 0 < (ops.flatMap countedIn).count x by omega))
      exact countedIn_pbFree (h op hop) hm
    have hf := factorFold_pbFree (cons := cons) (d := d) (x := x) ops ([], []) h (by simp)
    rw [← hg]
    simp only [List.mem_append] at hf
    refine pbFree_nary fun g hg => ?_
    simp only [List.mem_cons, List.not_mem_nil, or_false] at hg
    rcases hg with rfl | rfl
    · exact pbFree_nary fun g hg => hf g (.inr hg)
    · refine pbFree_nary fun g hg => ?_
      simp only [List.mem_cons, List.not_mem_nil, or_false] at hg
      rcases hg with rfl | rfl
      · exact hxp
      · exact pbFree_nary fun g hg => hf g (.inl hg)
theorem factorOutTop_pbFree {cons : Bool} {less : Fm α → Fm α → Bool} {f : Fm α} (h : f.pbFree = true) : (factorOutTop cons less f).pbFree = true := by
  have key : ∀ d ops, (∀ op ∈ ops, op.pbFree = true) → (factorOutSimplify cons d less f ops).pbFree = true := by
    intro d ops ho
    unfold factorOutSimplify
    cases hg : factorOutOps cons d ops with
    | none => exact h
    | some g =>
      dsimp only
      split
      · exact h
      · exact factorOutOps_pbFree ho hg
  unfold factorOutTop
  split
  · rw [Fm.pbFree_and, List.all_eq_true] at h; exact key true _ h
  · rw [Fm.pbFree_or, List.all_eq_true] at h; exact key false _ h
  · exact h

theorem allSome_mem {β γ : Type} {f : γ → Option β} : ∀ {fs : List γ} {gs : List β}, allSome (fs.map f) = some gs → ∀ g ∈ gs, ∃ x ∈ fs, f x = some g
  | [], gs, h, g, hg => by simp [allSome] at h; subst h; simp at hg
  | x :: fs, gs, h, g, hg => by
    rw [List.map_cons] at h
    cases hx : f x with
    | none => rw [hx, allSome] at h; cases h
    | some y =>
      rw [hx, allSome] at h
      cases hr : allSome (fs.map f) with
      | none => rw [hr] at h; cases h
      | some ys =>
        rw [hr] at h
        simp only [Option.map_some, Option.some.injEq] at h
        subst h
        rcases List.mem_cons.1 hg with rfl | hg
        · exact ⟨x, List.mem_cons_self, hx⟩
        · obtain ⟨z, h1, h2⟩ := allSome_mem hr g hg
          exact ⟨z, List.mem_cons_of_mem _ h1, h2⟩

theorem factorOut_pbFree {cons : Bool} {less : Fm α → Fm α → Bool} : ∀ {fuel : Nat} {f g : Fm α}, f.pbFree = true → factorOut cons less fuel f = some g → g.pbFree = true
  | 0, f, g, _, h => by simp [factorOut] at h
  | fuel + 1, f, g, hf, h => by
    have key : ∀ {o : Option (Fm α)}, (∀ k, o = some k → k.pbFree = true) →
        (match o with | none => none | some g => if g = f then some g else factorOut cons less fuel g) = some g → g.pbFree = true := by
      intro o ho hm
      cases o with
      | none => cases hm
      | some k =>
        dsimp only at hm
        split at hm
        · cases hm; exact ho _ rfl
        · exact factorOut_pbFree (ho k rfl) hm
    cases f with
    | and fs =>
      rw [factorOut] at h
      refine key ?_ h
      intro k hk
      cases hr : allSome (fs.map (factorOut cons less fuel)) with
      | none => rw [hr] at hk; cases hk
      | some gs =>
        rw [hr] at hk
        simp only [Option.map_some, Option.some.injEq] at hk
        subst hk
        refine factorOutTop_pbFree (pbFree_tAnd fun x hx => ?_)
        obtain ⟨y, h1, h2⟩ := allSome_mem hr x hx
        rw [Fm.pbFree_and, List.all_eq_true] at hf
        exact factorOut_pbFree (hf y h1) h2
    | or fs =>
      rw [factorOut] at h
      refine key ?_ h
      intro k hk
      cases hr : allSome (fs.map (factorOut cons less fuel)) with
      | none => rw [hr] at hk; cases hk
      | some gs =>
        rw [hr] at hk
        simp only [Option.map_some, Option.some.injEq] at hk
        subst hk
        refine factorOutTop_pbFree (pbFree_tOr fun x hx => ?_)
        obtain ⟨y, h1, h2⟩ := allSome_mem hr x hx
        rw [Fm.pbFree_or, List.all_eq_true] at hf
        exact factorOut_pbFree (hf y h1) h2
    | not f =>
      rw [factorOut] at h
      refine key ?_ h
      intro k hk
      cases hr : factorOut cons less fuel f with
      | none => rw [hr] at hk; cases hk
      | some g =>
        rw [hr] at hk
        simp only [Option.map_some, Option.some.injEq] at hk
        subst hk
        exact pbFree_tNot (factorOut_pbFree (by simpa using hf) hr)
    | _ =>
      rw [factorOut] at h <;> first
        | (intro _ e; cases e; done)
        | (refine key (o := some _) ?_ h
           intro k hk
           simp only [Option.some.injEq] at hk
           subst hk
           exact hf)

/-! ### the minimal DNF -/

/-- the literals of a clause built from literals without a complementary pair -/
theorem mem_lits_tOr {cons : Bool} {ls : List (Lit α)} (hc : Consistent ls) (l : Lit α) : l ∈ Prime.lits (tOr cons (ls.map .lit)) ↔ l ∈ ls := by
  have hop : ∀ g, OrOp (ls.map .lit) g → ∃ m ∈ ls, g = .lit m := by
    rintro g ⟨_, _, h1 | ⟨gs, h1, _⟩⟩
    · obtain ⟨m, hm, rfl⟩ := List.mem_map.1 h1.1; exact ⟨m, hm, rfl⟩
    · obtain ⟨m, _, e⟩ := List.mem_map.1 h1; cases e
  have hor : ∀ a : List (Fm α), (∀ g ∈ a, ∃ m ∈ ls, g = .lit m) → ∀ m, m ∈ Prime.litsL a ↔ .lit m ∈ a := by
    intro a
    induction a with
    | nil => intro _ m; simp [Prime.litsL]
    | cons g a ih =>
      intro ha m
      obtain ⟨k, _, rfl⟩ := ha g List.mem_cons_self
      rw [Prime.litsL, List.mem_append, ih (fun g hg => ha g (List.mem_cons_of_mem _ hg)), Prime.lits, List.mem_cons]
      simp
  -- literals of the result and its value
  have hP : (∀ m ∈ Prime.lits (tOr cons (ls.map .lit)), m ∈ ls) ∧
      (tOr cons (ls.map Fm.lit) = .tru ∨ ∀ v, (tOr cons (ls.map Fm.lit)).eval v = true → ∃ m ∈ Prime.lits (tOr cons (ls.map .lit)), m.eval v = true) := by
    refine tOr_elim (P := fun g => (∀ m ∈ Prime.lits g, m ∈ ls) ∧ (g = .tru ∨ ∀ v, g.eval v = true → ∃ m ∈ Prime.lits g, m.eval v = true)) ?_ ?_ ?_ ?_
    · exact ⟨by simp [Prime.lits], .inl rfl⟩
    · exact ⟨by simp [Prime.lits], .inr fun v h => by simp at h⟩
    · intro g hg
      obtain ⟨m, hm, rfl⟩ := hop g hg
      exact ⟨by simpa [Prime.lits] using hm, .inr fun v h => ⟨m, by simp [Prime.lits], by simpa using h⟩⟩
    · intro a _ _ ha
      have ha' : ∀ g ∈ a, ∃ m ∈ ls, g = .lit m := fun g hg => hop g (ha g hg)
      refine ⟨fun m hm => ?_, .inr fun v h => ?_⟩
      · rw [Prime.lits, hor a ha'] at hm
        obtain ⟨k, hk, e⟩ := ha' _ hm
        cases e; exact hk
      · rw [Fm.eval_or, List.any_eq_true] at h
        obtain ⟨g, hg, he⟩ := h
        obtain ⟨m, _, rfl⟩ := ha' g hg
        exact ⟨m, by rw [Prime.lits, hor a ha']; exact hg, by simpa using he⟩
  refine ⟨hP.1 l, fun hl => ?_⟩
  have hev : ∀ v, (tOr cons (ls.map Fm.lit)).eval v = true ↔ ∃ m ∈ ls, m.eval v = true := fun v => by simp
  rcases hP.2 with e | h
  · -- the clause is not valid
    have h1 := asg_true hc.negs
    obtain ⟨m, hm, he⟩ := (hev (asg (ls.map Lit.neg))).1 (by rw [e]; simp)
    have := h1 m.neg (mem_negs.2 (by rwa [Prime.neg_neg]))
    rw [Lit.eval_neg, he] at this
    cases this
  · -- an assignment which makes only `l` true
    have hc2 : Consistent (l :: (ls.filter (· ≠ l)).map Lit.neg) := by
      intro m hm hn
      rcases List.mem_cons.1 hm with rfl | hm <;> rcases List.mem_cons.1 hn with e | hn
      · exact neg_ne _ e
      · have := mem_negs.1 hn
        rw [Prime.neg_neg] at this
        simp at this
      · have := mem_negs.1 hm
        rw [e] at this
        simp at this
      · exact (hc.sub List.filter_sublist.subset).negs m hm hn
    have h1 := asg_true hc2
    obtain ⟨m, hm, he⟩ := h _ ((hev _).2 ⟨l, hl, h1 l List.mem_cons_self⟩)
    by_cases hml : m = l
    · rw [← hml]; exact hm
    · have := h1 m.neg (List.mem_cons_of_mem _ (mem_negs.2 (by rw [Prime.neg_neg]; simp [hP.1 m hm, hml])))
      rw [Lit.eval_neg, he] at this
      cases this

theorem mem_backTerm {cons : Bool} {ordL : List (Lit α) → List (Lit α)} (ho : ∀ l, (ordL l).Perm l) {P : List (Lit α)} (hc : Consistent P) (l : Lit α) :
    l ∈ backTerm ordL (tOr cons ((P.map Lit.neg).map .lit)) ↔ l ∈ P := by
  unfold backTerm
  rw [mem_negs, (ho _).mem_iff, List.mem_dedup, mem_lits_tOr hc.negs, mem_negs, Prime.neg_neg]

/-- the terms `T` are a DNF of the formula -/
def DnfOf (f : Fm α) (T : List (List (Lit α))) : Prop := ∀ v, f.eval v = true ↔ ∃ t ∈ T, TermTrue v t

/-- a DNF of prime implicants with the smallest number of terms -/
structure MinDnf (f : Fm α) (T : List (List (Lit α))) : Prop where
  prime : ∀ t ∈ T, PrimeImplicant f t
  dnf : DnfOf f T
  min : ∀ U, DnfOf f U → T.length ≤ U.length

theorem prime_congr {f : Fm α} {P Q : List (Lit α)} (h : PrimeImplicant f P) (he : ∀ l, l ∈ Q ↔ l ∈ P) : PrimeImplicant f Q := by
  refine ⟨⟨h.isImp.cons.sub fun l hl => (he l).1 hl, fun v hv => h.isImp.imp v fun l hl => hv l ((he l).2 hl)⟩, fun R hR hi l hl => ?_⟩
  exact h.min R (fun l hl => (he l).1 (hR hl)) hi ((he l).1 hl)

/-- every implicant contains a prime implicant -/
theorem exists_prime {f : Fm α} : ∀ (n : Nat) (P : List (Lit α)), P.length ≤ n → Implicant f P → ∃ Q, Q ⊆ P ∧ PrimeImplicant f Q
  | 0, P, hn, h => by
    have : P = [] := List.length_eq_zero_iff.1 (by omega)
    subst this
    exact ⟨[], fun _ h => h, h, fun _ _ _ => by simp⟩
  | n + 1, P, hn, h => by
    by_cases hp : PrimeImplicant f P
    · exact ⟨P, fun _ h => h, hp⟩
    · have : ∃ Q, Q ⊆ P ∧ Implicant f Q ∧ ¬ P ⊆ Q := by
        by_contra hno
        refine hp ⟨h, fun Q h1 h2 => ?_⟩
        by_contra h3
        exact hno ⟨Q, h1, h2, h3⟩
      obtain ⟨Q, h1, h2, h3⟩ := this
      -- drop a literal which is not needed
      have : ∃ l ∈ P, l ∉ Q := by
        by_contra hno
        exact h3 fun l hl => by by_contra hq; exact hno ⟨l, hl, hq⟩
      obtain ⟨l, hl, hlq⟩ := this
      have hR : Implicant f (P.filter (· ≠ l)) := by
        refine ⟨h.cons.sub List.filter_sublist.subset, fun v hv => h2.imp v fun m hm => hv m ?_⟩
        refine List.mem_filter.2 ⟨h1 hm, ?_⟩
        have : m ≠ l := fun e => hlq (e ▸ hm)
        simpa using this
      have hlen : (P.filter (· ≠ l)).length < P.length := by
        refine List.length_filter_lt_length_iff_exists.2 ⟨l, hl, by simp⟩
      obtain ⟨R, hR1, hR2⟩ := exists_prime n _ (by omega) hR
      exact ⟨R, fun m hm => (List.mem_filter.1 (hR1 hm)).1, hR2⟩

/-- a prime implicant speaks about variables of the formula only -/
theorem prime_vars {f : Fm α} {P : List (Lit α)} (h : PrimeImplicant f P) : ∀ l ∈ P, l.var ∈ f.vars := by
  intro l hl
  by_contra hv
  have : Implicant f (P.filter (· ≠ l)) := by
    refine ⟨h.isImp.cons.sub List.filter_sublist.subset, fun v hv2 => ?_⟩
    rw [← Fm.eval_congr f (v := fun x => if x = l.var then l.pos else v x) fun x hx => by
      rw [if_neg]; rintro rfl; exact hv hx]
    refine h.isImp.imp _ fun m hm => ?_
    by_cases hml : m = l
    · subst hml
      simp [Lit.eval]
    · have hvar : m.var ≠ l.var := by
        intro e
        rcases var_cases e with e | e
        · exact hml e
        · exact h.isImp.cons l hl (e ▸ hm)
      have := hv2 m (List.mem_filter.2 ⟨hm, by simpa using hml⟩)
      simpa [Lit.eval, hvar] using this
  have := h.min _ List.filter_sublist.subset this hl
  simp at this

/-- everything the simplifier calls answers rightly -/
structure Env.Ok (e : Env α) : Prop where
  backbone : ∀ f b, e.backbone f = some b → BackboneOk f b
  prime : e.prime.Ok false
  nv : Nv e.nv e.old
  call0 : e.call0.Ok
  ord : ∀ l, (e.ord l).Perm l
  envH : ∀ r, (e.envH r).call.Ok
  envG : ∀ r, (e.envG r).call.Ok
  ordL : ∀ l, (e.ordL l).Perm l
  pinj : ∀ i j, e.psel i = e.psel j → i = j
  oinj : ∀ i j, e.osel i = e.osel j → i = j
  ne : ∀ i j, e.psel i ≠ e.osel j

/-- the reserved names of the selectors do not occur in the formula -/
def Env.Fresh (e : Env α) (f : Fm α) : Prop := ∀ i, e.psel i ∉ f.vars ∧ e.osel i ∉ f.vars

/-- from a DNF one with as many prime implicants from `A` is obtained -/
theorem pick_primes {f : Fm α} {A : List (List (Lit α))} (hA : ∀ P, PrimeImplicant f P → ∃ Q ∈ A, ∀ l, l ∈ Q ↔ l ∈ P) : ∀ (U : List (List (Lit α))),
    (∀ u ∈ U, ∀ v, TermTrue v u → f.eval v = true) → ∃ C : List (List (Lit α)), C.length ≤ U.length ∧ (∀ c ∈ C, c ∈ A) ∧ ∀ u ∈ U, Consistent u → ∃ c ∈ C, c ⊆ u
  | [], _ => ⟨[], by simp⟩
  | u :: U, h => by
    obtain ⟨C, h1, h2, h3⟩ := pick_primes hA U fun u hu => h u (List.mem_cons_of_mem _ hu)
    by_cases hc : Consistent u
    · obtain ⟨Q, hQ1, hQ2⟩ := exists_prime _ u (Nat.le_refl _) ⟨hc, h u List.mem_cons_self⟩
      obtain ⟨R, hR1, hR2⟩ := hA Q hQ2
      refine ⟨R :: C, by simpa using h1, fun c hcm => ?_, fun w hw hcw => ?_⟩
      · rcases List.mem_cons.1 hcm with rfl | hcm
        · exact hR1
        · exact h2 c hcm
      · rcases List.mem_cons.1 hw with rfl | hw
        · exact ⟨R, List.mem_cons_self, fun l hl => hQ1 ((hR2 l).1 hl)⟩
        · obtain ⟨c, hc1, hc2⟩ := h3 w hw hcw
          exact ⟨c, List.mem_cons_of_mem _ hc1, hc2⟩
    · refine ⟨C, by simp; omega, h2, fun w hw hcw => ?_⟩
      rcases List.mem_cons.1 hw with rfl | hw
      · exact absurd hcw hc
      · exact h3 w hw hcw

theorem computeMinDNF_spec {cons : Bool} {e : Env α} (he : e.Ok) {f : Fm α} (hf : e.Fresh f) {fuel : Nat} (hn : 4 ^ f.vars.dedup.length < fuel) :
    computeMinDNF cons e fuel f = .canceled ∨ ∃ T, MinDnf f T ∧ computeMinDNF cons e fuel f = .ok (tOr cons (T.map tMinterm)) := by
  unfold computeMinDNF
  cases hp : Prime.compute e.prime cons true false e.nv e.old fuel f with
  | canceled => exact .inl rfl
  | fuel => exact absurd hp (C37_terminates he.prime cons true he.nv fuel f hn)
  | ok A B =>
    obtain ⟨h1, _, h3, _, h5, _, h7, _⟩ := C37_cover he.prime cons true he.nv fuel f hp
    dsimp only
    have hfm : ∀ p ∈ negateAll cons A, ∃ P ∈ A, p.fm = tOr cons ((P.map Lit.neg).map .lit) := by
      intro p hp
      obtain ⟨⟨P, i⟩, h, rfl⟩ := List.mem_map.1 hp
      exact ⟨P, by rw [← List.zipIdx_map_fst 0 A]; exact List.mem_map.2 ⟨_, h, rfl⟩, rfl⟩
    have hfresh : SelFresh e.psel e.osel [f] (negateAll cons A) := by
      refine ⟨he.pinj, he.oinj, he.ne, fun g hg => by rw [List.mem_singleton.1 hg]; exact hf, fun p hp i => ?_⟩
      obtain ⟨P, hP, e1⟩ := hfm p hp
      have : ∀ x ∈ p.fm.vars, x ∈ f.vars := by
        intro x hx
        rw [e1] at hx
        obtain ⟨g, hg, hxg⟩ := vars_tOr _ _ x hx
        obtain ⟨l, hl, rfl⟩ := List.mem_map.1 hg
        obtain ⟨m, hm, rfl⟩ := List.mem_map.1 hl
        simp only [Fm.vars_lit, List.mem_singleton] at hxg
        rw [hxg]
        exact prime_vars (h1 P hP) m hm
      exact ⟨fun h => (hf i).1 (this _ h), fun h => (hf i).2 (this _ h)⟩
    have hev : ∀ (P : List (Lit α)) (v : α → Bool), (tOr cons ((P.map Lit.neg).map Fm.lit)).eval v = true ↔ ¬ TermTrue v P := by
      intro P v
      rw [← clauseTrue_negs]
      simp only [eval_tOr, List.any_eq_true, ClauseTrue]
      constructor
      · rintro ⟨g, hg, h⟩
        obtain ⟨l, hl, rfl⟩ := List.mem_map.1 hg
        exact ⟨l, hl, by simpa using h⟩
      · rintro ⟨l, hl, h⟩
        exact ⟨.lit l, List.mem_map.2 ⟨l, hl, rfl⟩, by simpa using h⟩
    have hun : ∀ u : List (Prp α), Unsat [f] u ↔ ∀ v, f.eval v = true → ∃ p ∈ u, p.fm.eval v = false := by
      intro u
      unfold Unsat SatL
      constructor
      · intro h v hv
        by_contra hno
        refine h ⟨v, fun g hg => ?_⟩
        rcases List.mem_append.1 hg with hg | hg
        · rw [List.mem_singleton.1 hg]; exact hv
        · obtain ⟨p, hp, rfl⟩ := List.mem_map.1 hg
          by_contra hpf
          exact hno ⟨p, hp, by simpa using hpf⟩
      · rintro h ⟨v, hv⟩
        obtain ⟨p, hp, hpf⟩ := h v (hv f (List.mem_append_left _ List.mem_cons_self))
        rw [hv p.fm (List.mem_append_right _ (List.mem_map.2 ⟨p, hp, rfl⟩))] at hpf
        cases hpf
    have hall : Unsat [f] (negateAll cons A) := by
      rw [hun]
      intro v hv
      obtain ⟨P, hP, ht⟩ := (h5 v).1 hv
      obtain ⟨i, hi, e2⟩ := List.getElem_of_mem hP
      refine ⟨⟨i, tOr cons ((P.map Lit.neg).map .lit)⟩, List.mem_map.2 ⟨(P, i), ?_, rfl⟩, ?_⟩
      · rw [List.mem_zipIdx_iff_getElem?, ← e2]; simp [hi]
      · have := (hev P v)
        cases hc : (tOr cons ((P.map Lit.neg).map Fm.lit)).eval v with
        | false => rfl
        | true => exact absurd ht (this.1 hc)
    have hsm := C29_smus_partial cons e.smusStart he.call0 he.ord he.envH he.envG hfresh
    cases hr : smus cons e.smusStart e.call0 e.psel e.osel e.ord e.envH e.envG [f] (negateAll cons A) with
    | canceled => exact .inl rfl
    | error => rw [hr] at hsm; exact hsm.elim
    | panic => rw [hr] at hsm; exact hsm.elim
    | fuel => rw [hr] at hsm; exact hsm.elim
    | ok r =>
      rw [hr] at hsm
      cases r with
      | none => exact absurd hall hsm
      | some r =>
        obtain ⟨s1, s2, s3⟩ := hsm
        refine .inr ⟨r.map fun p => backTerm e.ordL p.fm, ⟨?_, ?_, ?_⟩, by rw [List.map_map]; rfl⟩
        · intro t ht
          obtain ⟨p, hp, rfl⟩ := List.mem_map.1 ht
          obtain ⟨P, hP, e1⟩ := hfm p (s1.subset hp)
          rw [e1]
          exact prime_congr (h1 P hP) (mem_backTerm he.ordL (h1 P hP).isImp.cons)
        · intro v
          have hterm : ∀ p ∈ r, p.fm.eval v = false ↔ TermTrue v (backTerm e.ordL p.fm) := by
            intro p hp
            obtain ⟨P, hP, e1⟩ := hfm p (s1.subset hp)
            have hm := mem_backTerm (cons := cons) he.ordL (h1 P hP).isImp.cons
            have ht : TermTrue v (backTerm e.ordL p.fm) ↔ TermTrue v P := by
              rw [e1]
              exact ⟨fun h l hl => h l ((hm l).2 hl), fun h l hl => h l ((hm l).1 hl)⟩
            rw [ht, e1, ← Bool.not_eq_true, hev, not_not]
          constructor
          · intro hv
            obtain ⟨p, hp, hpf⟩ := (hun r).1 s2 v hv
            exact ⟨_, List.mem_map.2 ⟨p, hp, rfl⟩, (hterm p hp).1 hpf⟩
          · rintro ⟨t, ht, htt⟩
            obtain ⟨p, hp, rfl⟩ := List.mem_map.1 ht
            obtain ⟨P, hP, e1⟩ := hfm p (s1.subset hp)
            refine (h5 v).2 ⟨P, hP, ?_⟩
            have hm := mem_backTerm (cons := cons) he.ordL (h1 P hP).isImp.cons
            rw [e1] at htt
            exact fun l hl => htt l ((hm l).2 hl)
        · intro U hU
          obtain ⟨C, hC1, hC2, hC3⟩ := pick_primes (h3 rfl) U fun u hu v hv => (hU v).2 ⟨u, hu, hv⟩
          obtain ⟨q, hq⟩ : ∃ q : List (Lit α) × Nat → Bool, q = fun p => decide (p.1 ∈ C) := ⟨_, rfl⟩
          have hlen := s3 ((A.zipIdx.filter q).map fun p => ⟨p.2, tOr cons ((p.1.map Lit.neg).map .lit)⟩) (List.filter_sublist.map _) (by
            rw [hun]
            intro v hv
            obtain ⟨u, hu, ht⟩ := (hU v).1 hv
            obtain ⟨c, hc1, hc2⟩ := hC3 u hu (consistent_of ht)
            obtain ⟨i, hi, e2⟩ := List.getElem_of_mem (hC2 c hc1)
            refine ⟨⟨i, tOr cons ((c.map Lit.neg).map .lit)⟩, List.mem_map.2 ⟨(c, i), List.mem_filter.2 ⟨?_, by rw [hq]; simpa using hc1⟩, rfl⟩, ?_⟩
            · rw [List.mem_zipIdx_iff_getElem?, ← e2]; simp [hi]
            · have := hev c v
              cases hcc : (tOr cons ((c.map Lit.neg).map Fm.lit)).eval v with
              | false => rfl
              | true => exact absurd (fun l hl => ht l (hc2 hl)) (this.1 hcc))
          rw [List.length_map]
          refine Nat.le_trans hlen ?_
          rw [List.length_map]
          refine Nat.le_trans ?_ hC1
          have hnd : A.Nodup := List.Pairwise.imp (fun {P Q} h (e : P = Q) => h (by rw [e]; exact fun _ h => h)) h7
          have : (A.zipIdx.filter q).length = (A.filter fun P => decide (P ∈ C)).length := by
            conv_rhs => rw [← List.zipIdx_map_fst 0 A, List.filter_map, List.length_map]
            rw [hq]; rfl
          rw [this]
          exact ((hnd.filter _).subperm fun P hP => by simpa using (List.mem_filter.1 hP).2).length_le

/-! ### theorems -/

theorem dnf_eval {cons : Bool} {f : Fm α} {T : List (List (Lit α))} (h : DnfOf f T) : Fm.Equivalent (tOr cons (T.map tMinterm)) f := by
  intro v
  rw [Bool.eq_iff_iff, h v]
  simp only [eval_tOr, List.any_map, List.any_eq_true, Function.comp, eval_tMinterm, List.all_eq_true, TermTrue]
theorem dnf_shape {cons : Bool} (T : List (List (Lit α))) : Spec.isDNF (tOr cons (T.map tMinterm)) = true := by
  have key : ∀ g, OrOp (T.map tMinterm) g → Spec.isMinterm g = true := by
    rintro g ⟨h1, _, h3 | ⟨gs, h3, _⟩⟩
    · obtain ⟨t, _, rfl⟩ := List.mem_map.1 h3.1
      revert h1
      unfold tMinterm
      split
      · intro h; exact absurd rfl h
      · intro _; rfl
      · intro _; simp [Spec.isMinterm, Spec.isLit]
    · obtain ⟨t, _, e⟩ := List.mem_map.1 h3
      revert e
      unfold tMinterm
      split <;> (intro e; cases e)
  refine tOr_elim (P := fun g => Spec.isDNF g = true) rfl rfl ?_ ?_
  · intro g hg
    have := key g hg
    cases g <;> simp_all [Spec.isDNF, Spec.isMinterm]
  · intro a _ _ ha
    simp only [Spec.isDNF, List.all_eq_true]
    exact fun g hg => key g (ha g hg)

/-- C36: Quine-McCluskey returns, unless cancelled, a DNF of the formula which consists of prime implicants; no DNF of the formula has fewer terms. -/
theorem C36_qmc (cons : Bool) {e : Env α} (he : e.Ok) {f : Fm α} (hf : e.Fresh f) {fuel : Nat} (hn : 4 ^ f.vars.dedup.length < fuel) :
    qmc cons e fuel f = .canceled ∨ ∃ T, qmc cons e fuel f = .ok (tOr cons (T.map tMinterm)) ∧ MinDnf f T ∧
      Fm.Equivalent (tOr cons (T.map tMinterm)) f ∧ Spec.isDNF (tOr cons (T.map tMinterm)) = true := by
  unfold qmc advanced
  cases hs : e.start with
  | false => exact .inl rfl
  | true =>
    simp only [Bool.not_true, Bool.false_eq_true, if_false]
    unfold advancedRest
    rcases computeMinDNF_spec (cons := cons) he hf hn with h | ⟨T, hT, h⟩
    · rw [h]; exact .inl rfl
    · rw [h]
      refine .inr ⟨T, ?_, hT, dnf_eval hT.dnf, dnf_shape T⟩
      simp [finishAdvanced, withRating]

theorem withRating_cases (less : Fm α → Fm α → Bool) (u : Bool) (f g : Fm α) : withRating less u f g = f ∨ withRating less u f g = g := by
  unfold withRating
  split
  · exact .inr rfl
  split
  · exact .inr rfl
  · exact .inl rfl

/-- the steps after the restriction to the backbone -/
theorem advancedRest_spec {cons : Bool} {e : Env α} (he : e.Ok) {cfg : Cfg} {bb : List (Lit α)} {s : Fm α} (hs : e.Fresh s) {fuel : Nat}
    (hn : 4 ^ s.vars.dedup.length < fuel) (hflat : Flat s) (hpb : cfg.simplifyNegations = true → s.pbFree = true) :
    advancedRest cons e cfg fuel bb s = .canceled ∨ ∃ g, advancedRest cons e cfg fuel bb s = .ok g ∧
      ∀ v, g.eval v = true ↔ s.eval v = true ∧ (cfg.restrictBackbone = true → TermTrue v bb) := by
  unfold advancedRest
  rcases computeMinDNF_spec (cons := cons) he hs hn with h | ⟨T, hT, h⟩
  · rw [h]; exact .inl rfl
  · rw [h]
    dsimp only
    right
    -- the DNF or the formula
    obtain ⟨s1, hs1⟩ : ∃ s1, withRating e.less cfg.useRating s (tOr cons (T.map tMinterm)) = s1 := ⟨_, rfl⟩
    have h1 : Fm.Equivalent s1 s ∧ Flat s1 ∧ (cfg.simplifyNegations = true → s1.pbFree = true) := by
      rcases withRating_cases e.less cfg.useRating s (tOr cons (T.map tMinterm)) with e1 | e1 <;> rw [hs1] at e1 <;> rw [e1]
      · exact ⟨fun _ => rfl, hflat, hpb⟩
      · refine ⟨dnf_eval hT.dnf, flat_tOr ?_, fun _ => pbFree_tOr ?_⟩
        · intro g hg; obtain ⟨t, _, rfl⟩ := List.mem_map.1 hg; exact flat_tMinterm t
        · intro g hg; obtain ⟨t, _, rfl⟩ := List.mem_map.1 hg; exact pbFree_tMinterm t
    rw [hs1]
    unfold finishAdvanced
    dsimp only
    -- common factors
    have h2 : ∃ s2, (if cfg.factorOut then (factorOut cons e.less (leaves s1 + 1) s1).map (withRating e.less cfg.useRating s1) else some s1) = some s2 ∧
        Fm.Equivalent s2 s ∧ (cfg.simplifyNegations = true → s2.pbFree = true) := by
      split
      · obtain ⟨g, hg1, hg2, _⟩ := C36_factorOut cons e.less h1.2.1 (Nat.lt_succ_self (leaves s1))
        refine ⟨withRating e.less cfg.useRating s1 g, by rw [Nat.succ_eq_add_one] at hg1; rw [hg1]; rfl, ?_⟩
        rcases withRating_cases e.less cfg.useRating s1 g with e1 | e1 <;> rw [e1]
        · exact ⟨h1.1, h1.2.2⟩
        · exact ⟨fun v => (hg2 v).trans (h1.1 v), fun h => factorOut_pbFree (h1.2.2 h) hg1⟩
      · exact ⟨s1, rfl, h1.1, h1.2.2⟩
    obtain ⟨s2, e2, h2, h2p⟩ := h2
    rw [e2]
    dsimp only
    -- the backbone
    obtain ⟨s3, hs3⟩ : ∃ s3, (if cfg.restrictBackbone = true then tAnd cons [tMinterm bb, s2] else s2) = s3 := ⟨_, rfl⟩
    have h3 : (∀ v, s3.eval v = true ↔ s.eval v = true ∧ (cfg.restrictBackbone = true → TermTrue v bb)) ∧ (cfg.simplifyNegations = true → s3.pbFree = true) := by
      rw [← hs3]
      cases hb : cfg.restrictBackbone with
      | true =>
        simp only [if_true, forall_const]
        refine ⟨fun v => ?_, fun h => pbFree_tAnd ?_⟩
        · rw [← h2 v]
          simp only [eval_tAnd, List.all_cons, List.all_nil, Bool.and_true, Bool.and_eq_true, eval_tMinterm, List.all_eq_true, TermTrue]
          exact And.comm
        · intro g hg
          simp only [List.mem_cons, List.not_mem_nil, or_false] at hg
          rcases hg with rfl | rfl
          · exact pbFree_tMinterm bb
          · exact h2p h
      | false =>
        simp only [Bool.false_eq_true, if_false, false_imp_iff, and_true]
        exact ⟨fun v => by rw [h2 v], h2p⟩
    rw [hs3]
    cases hn : cfg.simplifyNegations with
    | true =>
      simp only [if_true]
      obtain ⟨g, hg1, hg2, _⟩ := C36_negations cons e.enc e.len s3 (h3.2 hn)
      rw [hg1]
      refine ⟨_, rfl, fun v => ?_⟩
      rcases withRating_cases e.less cfg.useRating s3 g with e1 | e1 <;> rw [e1]
      · exact h3.1 v
      · rw [hg2 v]; exact h3.1 v
    | false =>
      simp only [Bool.false_eq_true, if_false]
      exact ⟨s3, rfl, h3.1⟩

/-- C36: `Advanced` with any handler, configuration and rating returns, unless cancelled, a formula equivalent to the input; if negations are minimized
this holds for formulas without cardinality and pseudo-Boolean constraints. -/
theorem C36_advanced (cons : Bool) {e : Env α} (he : e.Ok) (cfg : Cfg) {f : Fm α} (hf : e.Fresh f) {fuel : Nat} (hn : 4 ^ f.vars.dedup.length < fuel)
    (hflat : Flat f) (hpb : cfg.simplifyNegations = true → f.pbFree = true) :
    advanced cons e cfg fuel f = .canceled ∨ ∃ g, advanced cons e cfg fuel f = .ok g ∧ Fm.Equivalent g f := by
  unfold advanced
  cases hs : e.start with
  | false => exact .inl rfl
  | true =>
    simp only [Bool.not_true, Bool.false_eq_true, if_false]
    cases hb : cfg.restrictBackbone with
    | false =>
      simp only [Bool.false_eq_true, if_false]
      rcases advancedRest_spec (cons := cons) (bb := []) he hf hn hflat hpb with h | ⟨g, h1, h2⟩
      · exact .inl h
      · refine .inr ⟨g, h1, fun v => ?_⟩
        rw [Bool.eq_iff_iff, h2 v, hb]
        simp
    | true =>
      simp only [if_true]
      cases hbb : e.backbone f with
      | none => exact .inl rfl
      | some b =>
        have hbo := he.backbone f b hbb
        cases b with
        | none => exact .inr ⟨.fls, rfl, fun v => by rw [hbo v]; simp⟩
        | some b =>
          obtain ⟨⟨w, hw⟩, hi⟩ := hbo
          obtain ⟨a, ha⟩ := new_of_model (hi w hw)
          dsimp only
          rw [foldl_addLit (a := a) ha]
          have hvars : ∀ x ∈ (Assignment.restrict cons a f).vars, x ∈ f.vars := fun x hx => (Assignment.C06_restrict_vars ha cons f x hx).1
          have hlen : (Assignment.restrict cons a f).vars.dedup.length ≤ f.vars.dedup.length :=
            ((List.nodup_dedup _).subperm fun x hx => List.mem_dedup.2 (hvars x (List.mem_dedup.1 hx))).length_le
          rcases advancedRest_spec (cons := cons) (bb := completeBackbone b) (s := Assignment.restrict cons a f) he
              (fun i => ⟨fun h => (hf i).1 (hvars _ h), fun h => (hf i).2 (hvars _ h)⟩)
              (Nat.lt_of_le_of_lt (Nat.pow_le_pow_right (by omega) hlen) hn) (flat_restrict f) (fun h => pbFree_restrict f (hpb h)) with h | ⟨g, h1, h2⟩
          · exact .inl h
          · refine .inr ⟨g, h1, fun v => ?_⟩
            rw [Bool.eq_iff_iff, h2 v, hb]
            simp only [forall_const]
            constructor
            · rintro ⟨h3, h4⟩
              rw [Assignment.C06_restrict ha cons f v h4] at h3
              exact h3
            · intro h3
              have h4 := hi v h3
              exact ⟨by rw [Assignment.C06_restrict ha cons f v h4]; exact h3, h4⟩

/-! ### cases meeting the hypotheses -/
section Example
/-- `a & b | a & ~b` -/
private def xF : Fm Nat := .or [.and [.lit ⟨0, true⟩, .lit ⟨1, true⟩], .and [.lit ⟨0, true⟩, .lit ⟨1, false⟩]]
private def xNv (l : Lit Nat) : Nat := 2 + 2 * l.var + if l.pos then 1 else 0
private def xOld (n : Nat) : Lit Nat := ⟨(n - 2) / 2, (n - 2) % 2 = 1⟩
private theorem xNv_ok : Nv xNv xOld := by
  refine ⟨fun l => ?_⟩
  obtain ⟨x, p⟩ := l
  cases p <;> simp [xNv, xOld] <;> omega
/-- an environment as assumed: solvers which always answer -/
example : ∃ e : Env Nat, e.Ok ∧ e.Fresh xF ∧ e.start = true ∧ e.smusStart = true ∧ e.prime.Total := by
  classical
  obtain ⟨o, h1, h2⟩ := Prime.exists_ok (α := Nat) false
  let call : SatOracle Nat := fun _ fs => some (if h : ∃ v, Holds v fs then some h.choose else none)
  have hcall : call.Ok := by
    intro n fs
    constructor
    · intro h hv
      simp only [call, dif_pos hv] at h
      cases h
    · intro v h
      by_cases hv : ∃ v, Holds v fs
      · simp only [call, dif_pos hv, Option.some.injEq] at h
        rw [← h]; exact hv.choose_spec
      · simp only [call, dif_neg hv] at h
        cases h
  let env : OptEnv Nat := ⟨call, fun _ => true, true⟩
  refine ⟨⟨true, fun f => some (if ∃ v, f.eval v = true then some ([], []) else none), o, xNv, xOld, true, call, fun i => 10 + 2 * i, fun i => 11 + 2 * i, id,
    fun _ => env, fun _ => env, id, fun f g => leaves f < leaves g, id, leaves⟩, ⟨?_, h1, xNv_ok, hcall, fun l => .refl l, fun _ => hcall, fun _ => hcall, fun l => .refl l,
    fun i j h => by simp at h; omega, fun i j h => by simp at h; omega, fun i j h => by simp at h; omega⟩, ?_, rfl, rfl, h2⟩
  · intro f b hb
    simp only [Option.some.injEq] at hb
    rw [← hb]
    by_cases hf : ∃ v, f.eval v = true
    · rw [if_pos hf]
      exact ⟨hf, fun v _ l hl => by simp [completeBackbone] at hl⟩
    · rw [if_neg hf]
      intro v
      cases hv : f.eval v with
      | false => rfl
      | true => exact absurd ⟨v, hv⟩ hf
  · intro i
    simp [xF]
    omega

/-- truth tables over the variables `0` to `7` -/
private def xVals : List (Nat → Bool) := (List.range 256).map fun m x => Nat.testBit m x
private def xCall : SatOracle Nat := fun _ fs => some (xVals.find? fun v => fs.all (·.eval v))
private def xOrc : Prime.Orc Nat := {
  opt := fun _ h ls => some ((xVals.filter fun v => h.all (·.eval v)).foldl (fun b v => match b with
    | none => some v
    | some w => if numTrue v ls < numTrue w ls then some v else some w) none)
  sat := fun _ f as => some (xVals.any fun v => f.eval v && as.all (·.eval v))
  mdl := fun _ f as vs => some ((xVals.find? fun v => f.eval v && as.all (·.eval v)).map fun v => vs.map fun x => ⟨x, v x⟩)
  go := fun _ => true
  ordV := id
  ordL := id }
private def xEnv : Env Nat := ⟨true, fun _ => some (some ([0], [])), xOrc, xNv, xOld, true, xCall, fun i => 6 + 2 * i, fun i => 7 + 2 * i, id,
  fun _ => ⟨xCall, fun _ => true, true⟩, fun _ => ⟨xCall, fun _ => true, true⟩, id, fun f g => leaves f < leaves g, id, leaves⟩
private def xOut : ARes Nat → Option (Fm Nat)
  | .ok f => some f
  | _ => none
/-- `a & b | a & ~b` becomes `a` -/
example : xOut (qmc false xEnv 17 xF) = some (.lit ⟨0, true⟩) := by decide +kernel
example : xOut (advanced false xEnv ⟨true, true, true, true⟩ 17 xF) = some (.lit ⟨0, true⟩) := by decide +kernel
end Example

end Verif.Simpl
