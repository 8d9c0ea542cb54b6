import Verif.Solver.Model
/-! # The Plaisted–Greenbaum transformation on the solver -/
namespace Verif.Solver
open Verif
open Verif.Sat (Models lv lv_neg)

variable {α : Type} [DecidableEq α]

/-- the clauses that a call of the core solver stands for -/
def clsOf1 : Sat.Op → List (List Nat)
  | .add c => [c]
  | .atMost vs k => Sat.amCnf vs k
  | _ => []

/-- the clauses of the calls of the core solver -/
def clsOf (ops : List Sat.Op) : List (List Nat) := ops.flatMap clsOf1

/-- the assignment of formula variables and the one of solver variables agree where there are names -/
def Agree (slots : List (Slot α)) (v : α → Bool) (u : Nat → Bool) : Prop := ∀ (i : Nat) x, slots[i]? = some (.name (.usr x)) → u i = v x

/-- the variables of definitions have the values of their formulas -/
def Fits (slots : List (Slot α)) (v : α → Bool) (u : Nat → Bool) : Prop := ∀ (i : Nat) g, slots[i]? = some (.pg g) → u i = g.eval v

/-- ranges and uniqueness of names; `Γ`: the clauses added before -/
structure WF (Γ : List (List Nat)) (s : PS α) : Prop where
  rng : ∀ c ∈ Γ ++ clsOf s.ops, ∀ l ∈ c, l / 2 < s.slots.length
  nodup : ∀ (i j : Nat) e, s.slots[i]? = some (.name e) → s.slots[j]? = some (.name e) → i = j

/-- the literal implies that the formula has this value -/
def Imp (Γ : List (List Nat)) (s : PS α) (x : Nat) (pol : Bool) (g : Fm α) : Prop :=
  ∀ u v, Models (Γ ++ clsOf s.ops) u → Agree s.slots v u → lv u x = pol → g.eval v = pol

/-- the cache is right except for the formulas in `P` -/
structure CacheOk (P : Fm α → Prop) (Γ : List (List Nat)) (s : PS α) : Prop where
  slot : ∀ g e, s.cache.lookup g = some e → e.var % 2 = 0 ∧ s.slots[e.var / 2]? = some (.pg g)
  pos : ∀ g e, s.cache.lookup g = some e → ¬P g → e.pos = true → Imp Γ s e.var true g
  neg : ∀ g e, s.cache.lookup g = some e → ¬P g → e.neg = true → Imp Γ s e.var false g

/-- is a variable made -/
def isNew : Sat.Op → Bool
  | .newVar => true
  | _ => false

/-- only variables and clauses are added, and each variable has its slot; `n`: number of variables before -/
def Bal (n : Nat) (s : PS α) : Prop := (∀ o ∈ s.ops, o = .newVar ∨ ∃ c, o = .add c) ∧ s.slots.length = n + s.ops.countP isNew

/-- as `Bal`, where at-most clauses may be added if `m` -/
def BalM (m : Bool) (n : Nat) (s : PS α) : Prop :=
  (∀ o ∈ s.ops, o = .newVar ∨ (∃ c, o = .add c) ∨ m = true ∧ ∃ vs k, o = .atMost vs k ∧ vs.Nodup) ∧ s.slots.length = n + s.ops.countP isNew

omit [DecidableEq α] in
theorem Bal.toM {m : Bool} {n : Nat} {s : PS α} (h : Bal n s) : BalM m n s := ⟨fun o ho => (h.1 o ho).imp id Or.inl, h.2⟩

/-- the state only grows; entries of formulas larger than `N` stay -/
structure Step (P : Fm α → Prop) (Γ : List (List Nat)) (N : Nat) (s s' : PS α) : Prop where
  slots : s.slots <+: s'.slots
  ops : s.ops <+: s'.ops
  wf : WF Γ s'
  frame : ∀ g, N < sizeOf g → s'.cache.lookup g = s.cache.lookup g
  cache : CacheOk P Γ s'
  bal : ∀ n, Bal n s → Bal n s'
  aux : ∀ n, Slot.name (.aux n) ∈ s'.slots → Slot.name (.aux n) ∈ s.slots

/-- the clauses added hold if definitions have their values and the condition holds -/
def Compl (K : (α → Bool) → Prop) (s s' : PS α) : Prop :=
  ∀ u v, Agree s'.slots v u → Fits s'.slots v u → K v → Models (clsOf s.ops) u → Models (clsOf s'.ops) u

/-- what the transformation of a formula achieves -/
structure Res (P : Fm α → Prop) (Γ : List (List Nat)) (f : Fm α) (pol top : Bool) (s : PS α) (D : Option (List Nat)) (s' : PS α) : Prop where
  step : Step P Γ (sizeOf f) s s'
  compl : Compl (fun v => top = true → f.eval v = pol) s s'
  rng : ∀ c, D = some c → ∀ l ∈ c, l / 2 < s'.slots.length
  nil : top = false → D ≠ none
  sound : ∀ u v, Models (Γ ++ clsOf s'.ops) u → Agree s'.slots v u → (∀ c, D = some c → Sat.Sat u c) → f.eval v = pol
  dcompl : ∀ u v, Agree s'.slots v u → Fits s'.slots v u → f.eval v = pol → ∀ c, D = some c → Sat.Sat u c

/-! ### basics -/

omit [DecidableEq α] in
theorem getElem_prefix {l l' : List (Slot α)} (h : l <+: l') {i : Nat} {x : Slot α} (hi : l[i]? = some x) : l'[i]? = some x := by
  obtain ⟨t, rfl⟩ := h
  rw [List.getElem?_append_left (List.getElem?_eq_some_iff.1 hi).1]; exact hi

omit [DecidableEq α] in
theorem Agree.mono {l l' : List (Slot α)} {v : α → Bool} {u : Nat → Bool} (h : Agree l' v u) (hp : l <+: l') : Agree l v u :=
  fun i x hi => h i x (getElem_prefix hp hi)
omit [DecidableEq α] in
theorem Fits.mono {l l' : List (Slot α)} {v : α → Bool} {u : Nat → Bool} (h : Fits l' v u) (hp : l <+: l') : Fits l v u :=
  fun i x hi => h i x (getElem_prefix hp hi)

theorem clsOf_prefix {a b : List Sat.Op} (h : a <+: b) : clsOf a <+: clsOf b := by
  obtain ⟨t, rfl⟩ := h
  unfold clsOf
  rw [List.flatMap_append]
  exact List.prefix_append _ _

theorem models_prefix {Γ : List (List Nat)} {a b : List Sat.Op} {u : Nat → Bool} (h : Models (Γ ++ clsOf b) u) (hp : a <+: b) : Models (Γ ++ clsOf a) u := by
  intro c hc
  rcases List.mem_append.1 hc with hc | hc
  · exact h c (List.mem_append_left _ hc)
  · exact h c (List.mem_append_right _ ((clsOf_prefix hp).subset hc))

theorem clsOf_add (ops : List Sat.Op) (c : List Nat) : clsOf (ops ++ [.add c]) = clsOf ops ++ [c] := by simp [clsOf, clsOf1]
theorem clsOf_new (ops : List Sat.Op) : clsOf (ops ++ [.newVar]) = clsOf ops := by simp [clsOf, clsOf1]

omit [DecidableEq α] in
theorem Imp.mono {Γ : List (List Nat)} {s s' : PS α} {x : Nat} {pol : Bool} {g : Fm α} (h : Imp Γ s x pol g) (h1 : s.slots <+: s'.slots) (h2 : s.ops <+: s'.ops) :
    Imp Γ s' x pol g := fun u v hu ha hx => h u v (models_prefix hu h2) (ha.mono h1) hx

theorem lv_even {u : Nat → Bool} {x : Nat} (h : x % 2 = 0) : lv u x = u (x / 2) := by unfold lv; rw [if_pos h]

theorem slit_mod (i : Nat) : slit i true % 2 = 0 := by simp [slit]
theorem slit_div (i : Nat) (p : Bool) : slit i p / 2 = i := by unfold slit; split <;> omega
theorem lv_slit (u : Nat → Bool) (i : Nat) (p : Bool) : lv u (slit i p) = (u i == p) := by
  unfold lv
  rw [slit_div]
  cases p
  · rw [if_neg (by simp [slit])]; simp
  · rw [if_pos (by simp [slit])]; simp

theorem sat_cons {u : Nat → Bool} {x : Nat} {c : List Nat} : Sat.Sat u (x :: c) ↔ lv u x = true ∨ Sat.Sat u c := by simp [Sat.Sat]
theorem sat_append {u : Nat → Bool} {a b : List Nat} : Sat.Sat u (a ++ b) ↔ Sat.Sat u a ∨ Sat.Sat u b := by
  simp only [Sat.Sat, List.mem_append, or_and_right, exists_or]
theorem sat_single {u : Nat → Bool} {x : Nat} : Sat.Sat u [x] ↔ lv u x = true := by simp [Sat.Sat]

omit [DecidableEq α] in
theorem WF.add {Γ : List (List Nat)} {s : PS α} (h : WF Γ s) {c : List Nat} (hc : ∀ l ∈ c, l / 2 < s.slots.length) : WF Γ (s.add c) := by
  refine ⟨fun d hd => ?_, h.nodup⟩
  have hd : d ∈ Γ ++ clsOf (s.ops ++ [.add c]) := hd
  rw [clsOf_add, ← List.append_assoc] at hd
  rcases List.mem_append.1 hd with hd | hd
  · exact h.rng d hd
  · rw [List.mem_singleton.1 hd]; exact hc

theorem CacheOk.add {P : Fm α → Prop} {Γ : List (List Nat)} {s : PS α} (h : CacheOk P Γ s) (c : List Nat) : CacheOk P Γ (s.add c) :=
  ⟨h.slot, fun g e hl hp hf => (h.pos g e hl hp hf).mono (List.prefix_refl _) (List.prefix_append _ _),
    fun g e hl hp hf => (h.neg g e hl hp hf).mono (List.prefix_refl _) (List.prefix_append _ _)⟩

theorem CacheOk.new {P : Fm α → Prop} {Γ : List (List Nat)} {s : PS α} (h : CacheOk P Γ s) (x : Slot α) : CacheOk P Γ (s.new x) :=
  ⟨fun g e hl => ⟨(h.slot g e hl).1, getElem_prefix (List.prefix_append _ _) (h.slot g e hl).2⟩,
    fun g e hl hp hf => (h.pos g e hl hp hf).mono (List.prefix_append _ _) (List.prefix_append _ _),
    fun g e hl hp hf => (h.neg g e hl hp hf).mono (List.prefix_append _ _) (List.prefix_append _ _)⟩

theorem idx_none {slots : List (Slot α)} {e : Enc.EV α} (h : idx slots e = none) (i : Nat) : slots[i]? ≠ some (.name e) := by
  intro hi
  unfold idx at h
  rw [List.findIdx?_eq_none_iff] at h
  have := h _ (List.mem_of_getElem? hi)
  simp [Slot.is] at this

theorem idx_some {slots : List (Slot α)} {e : Enc.EV α} {i : Nat} (h : idx slots e = some i) : slots[i]? = some (.name e) := by
  unfold idx at h
  rw [List.findIdx?_eq_some_iff_getElem] at h
  obtain ⟨hi, h1, _⟩ := h
  rw [List.getElem?_eq_getElem hi]
  cases hs : slots[i] with
  | name e' => rw [hs] at h1; simp [Slot.is] at h1; rw [h1]
  | pg g => rw [hs] at h1; simp [Slot.is] at h1

theorem WF.new {Γ : List (List Nat)} {s : PS α} (h : WF Γ s) {x : Slot α} (hx : ∀ e, x = .name e → idx s.slots e = none) : WF Γ (s.new x) := by
  refine ⟨fun d hd l hl => ?_, fun i j e hi hj => ?_⟩
  · have hd : d ∈ Γ ++ clsOf (s.ops ++ [.newVar]) := hd
    rw [clsOf_new] at hd
    have := h.rng d hd l hl
    show l / 2 < (s.slots ++ [x]).length
    simp; omega
  · have hi : (s.slots ++ [x])[i]? = some (.name e) := hi
    have hj : (s.slots ++ [x])[j]? = some (.name e) := hj
    have key : ∀ k, (s.slots ++ [x])[k]? = some (.name e) → (k < s.slots.length ∧ s.slots[k]? = some (.name e)) ∨ (k = s.slots.length ∧ x = .name e) := by
      intro k hk
      rcases Nat.lt_trichotomy k s.slots.length with hl | hl | hl
      · rw [List.getElem?_append_left hl] at hk; exact .inl ⟨hl, hk⟩
      · subst hl
        rw [List.getElem?_append_right (Nat.le_refl _), Nat.sub_self] at hk
        cases hk
        exact .inr ⟨rfl, rfl⟩
      · rw [List.getElem?_eq_none (by simp; omega)] at hk; cases hk
    rcases key i hi with ⟨a, b⟩ | ⟨a, b⟩ <;> rcases key j hj with ⟨a', b'⟩ | ⟨a', b'⟩
    · exact h.nodup i j e b b'
    · exact absurd b (idx_none (hx e b') i)
    · exact absurd b' (idx_none (hx e b) j)
    · rw [a, a']

omit [DecidableEq α] in
theorem Bal.add {n : Nat} {s : PS α} (h : Bal n s) (c : List Nat) : Bal n (s.add c) := by
  refine ⟨fun o ho => ?_, ?_⟩
  · have ho : o ∈ s.ops ++ [.add c] := ho
    rcases List.mem_append.1 ho with ho | ho
    · exact h.1 o ho
    · rw [List.mem_singleton.1 ho]; exact .inr ⟨c, rfl⟩
  · show s.slots.length = n + (s.ops ++ [Sat.Op.add c]).countP _
    rw [List.countP_append, h.2]; simp [isNew]
omit [DecidableEq α] in
theorem Bal.new {n : Nat} {s : PS α} (h : Bal n s) (x : Slot α) : Bal n (s.new x) := by
  refine ⟨fun o ho => ?_, ?_⟩
  · have ho : o ∈ s.ops ++ [.newVar] := ho
    rcases List.mem_append.1 ho with ho | ho
    · exact h.1 o ho
    · rw [List.mem_singleton.1 ho]; exact .inl rfl
  · show (s.slots ++ [x]).length = n + (s.ops ++ [Sat.Op.newVar]).countP _
    rw [List.countP_append, List.length_append, h.2]; simp [isNew]; omega

theorem Step.refl {P : Fm α → Prop} {Γ : List (List Nat)} {N : Nat} {s : PS α} (h : WF Γ s) (hc : CacheOk P Γ s) : Step P Γ N s s :=
  ⟨List.prefix_refl _, List.prefix_refl _, h, fun _ _ => rfl, hc, fun _ h => h, fun _ h => h⟩
theorem Step.trans {P : Fm α → Prop} {Γ : List (List Nat)} {N : Nat} {s s' s'' : PS α} (h : Step P Γ N s s') (h' : Step P Γ N s' s'') : Step P Γ N s s'' :=
  ⟨h.slots.trans h'.slots, h.ops.trans h'.ops, h'.wf, fun g hg => (h'.frame g hg).trans (h.frame g hg), h'.cache, fun n hb => h'.bal n (h.bal n hb), fun n hn => h.aux n (h'.aux n hn)⟩
theorem Step.weaken {P : Fm α → Prop} {Γ : List (List Nat)} {N M : Nat} {s s' : PS α} (h : Step P Γ N s s') (hm : N ≤ M) : Step P Γ M s s' :=
  ⟨h.slots, h.ops, h.wf, fun g hg => h.frame g (by omega), h.cache, h.bal, h.aux⟩
theorem Step.add {P : Fm α → Prop} {Γ : List (List Nat)} {N : Nat} {s s' : PS α} (h : Step P Γ N s s') {c : List Nat} (hc : ∀ l ∈ c, l / 2 < s'.slots.length) :
    Step P Γ N s (s'.add c) :=
  ⟨h.slots, h.ops.trans (List.prefix_append _ _), h.wf.add hc, h.frame, h.cache.add c, fun n hb => (h.bal n hb).add c, h.aux⟩

omit [DecidableEq α] in
theorem Compl.refl {K : (α → Bool) → Prop} (s : PS α) : Compl K s s := fun _ _ _ _ _ h => h
theorem Compl.trans {K : (α → Bool) → Prop} {P : Fm α → Prop} {Γ : List (List Nat)} {N : Nat} {s s' s'' : PS α} (h : Compl K s s') (h' : Compl K s' s'') (hs : Step P Γ N s' s'') :
    Compl K s s'' := fun u v ha hf hk hm => h' u v ha hf hk (h u v (ha.mono hs.slots) (hf.mono hs.slots) hk hm)
omit [DecidableEq α] in
theorem Compl.weaken {K L : (α → Bool) → Prop} {s s' : PS α} (h : Compl K s s') (hk : ∀ v, L v → K v) : Compl L s s' :=
  fun u v ha hf hl hm => h u v ha hf (hk v hl) hm
omit [DecidableEq α] in
theorem Compl.add {K : (α → Bool) → Prop} {s s' : PS α} (h : Compl K s s') {c : List Nat} (hc : ∀ u v, Agree s'.slots v u → Fits s'.slots v u → K v → Sat.Sat u c) :
    Compl K s (s'.add c) := by
  intro u v ha hf hk hm
  have := h u v ha hf hk hm
  intro d hd
  have hd : d ∈ clsOf (s'.ops ++ [.add c]) := hd
  rw [clsOf_add] at hd
  rcases List.mem_append.1 hd with hd | hd
  · exact this d hd
  · rw [List.mem_singleton.1 hd]; exact hc u v ha hf hk

/-! ### literals -/

/-- what a solver literal means -/
structure LitOk (l : Lit (Enc.EV α)) (s : PS α) (x : Nat) (s' : PS α) : Prop where
  slots : s.slots <+: s'.slots
  ops : s.ops <+: s'.ops
  cls : clsOf s'.ops = clsOf s.ops
  cache : s'.cache = s.cache
  var : ∃ i, s'.slots[i]? = some (.name l.var) ∧ x = slit i l.pos

theorem solverLit_spec {P : Fm α → Prop} {Γ : List (List Nat)} {N : Nat} {s : PS α} (h : WF Γ s) (hc : CacheOk P Γ s) (l : Lit (Enc.EV α))
    (hl : ∀ n, l.var = .aux n → Slot.name l.var ∈ s.slots) :
    LitOk l s (solverLit l s).1 (solverLit l s).2 ∧ Step P Γ N s (solverLit l s).2 := by
  unfold solverLit
  cases hi : idx s.slots l.var with
  | some i => exact ⟨⟨List.prefix_refl _, List.prefix_refl _, rfl, rfl, i, idx_some hi, rfl⟩, Step.refl h hc⟩
  | none =>
    have hw : WF Γ (s.new (.name l.var)) := h.new fun e he => by cases he; exact hi
    refine ⟨⟨List.prefix_append _ _, List.prefix_append _ _, clsOf_new _, rfl, s.slots.length, ?_, rfl⟩, List.prefix_append _ _, List.prefix_append _ _, hw, fun _ _ => rfl, hc.new _, fun n hb => hb.new _, fun n hn => ?_⟩
    · show (s.slots ++ [_])[s.slots.length]? = _
      simp
    · have hn : Slot.name (.aux n) ∈ s.slots ++ [.name l.var] := hn
      rcases List.mem_append.1 hn with hn | hn
      · exact hn
      · have e := List.mem_singleton.1 hn
        injection e with e
        rw [e]; exact hl n e.symm

omit [DecidableEq α] in
theorem LitOk.rng {l : Lit (Enc.EV α)} {s s' : PS α} {x : Nat} (h : LitOk l s x s') : x / 2 < s'.slots.length := by
  obtain ⟨i, hi, rfl⟩ := h.var
  rw [slit_div]; exact (List.getElem?_eq_some_iff.1 hi).1

omit [DecidableEq α] in
theorem LitOk.eval {l : Lit α} {s s' : PS α} {x : Nat} (h : LitOk (usr l) s x s') {u : Nat → Bool} {v : α → Bool} (ha : Agree s'.slots v u) : lv u x = l.eval v := by
  obtain ⟨i, hi, rfl⟩ := h.var
  rw [lv_slit, ha i _ hi]
  show (v l.var == l.pos) = _
  unfold Lit.eval
  cases l.pos <;> cases v l.var <;> rfl

/-! ### variables of definitions -/

/-- the state after `getPGVar` -/
structure VarOk (P : Fm α → Prop) (Γ : List (List Nat)) (f : Fm α) (pol : Bool) (s : PS α) (was : Bool) (x : Nat) (s' : PS α) : Prop where
  slots : s.slots <+: s'.slots
  ops : s.ops <+: s'.ops
  cls : clsOf s'.ops = clsOf s.ops
  wf : WF Γ s'
  even : x % 2 = 0
  slot : s'.slots[x / 2]? = some (.pg f)
  frame : ∀ g, g ≠ f → s'.cache.lookup g = s.cache.lookup g
  cache : CacheOk (fun g => P g ∨ g = f) Γ s'
  look : ∃ e, s'.cache.lookup f = some e ∧ e.var = x ∧ (e.pos = true → pol = true ∨ Imp Γ s' x true f) ∧ (e.neg = true → pol = false ∨ Imp Γ s' x false f)
  was : was = true → Imp Γ s' x pol f
  bal : ∀ n, Bal n s → Bal n s'
  aux : ∀ n, Slot.name (.aux n) ∈ s'.slots → Slot.name (.aux n) ∈ s.slots

theorem lookup_cons_ne {f g : Fm α} {e : Entry} {c : List (Fm α × Entry)} (h : g ≠ f) : ((f, e) :: c).lookup g = c.lookup g := by
  rw [List.lookup_cons, show (g == f) = false by simpa using h]
theorem lookup_cons_eq {f : Fm α} {e : Entry} {c : List (Fm α × Entry)} : ((f, e) :: c).lookup f = some e := by
  rw [List.lookup_cons]; simp

theorem getPGVar_spec {P : Fm α → Prop} {Γ : List (List Nat)} {s : PS α} (h : WF Γ s) (hc : CacheOk P Γ s) {f : Fm α} (hP : ¬P f) {pol was : Bool} {x : Nat} {s' : PS α}
    (he : getPGVar f pol s = (was, x, s')) : VarOk P Γ f pol s was x s' := by
  unfold getPGVar at he
  cases hl : s.cache.lookup f with
  | some e =>
    rw [hl] at he
    dsimp only at he
    cases he
    obtain ⟨h1, h2⟩ := hc.slot f e hl
    refine ⟨List.prefix_refl _, List.prefix_refl _, rfl, ⟨h.rng, h.nodup⟩, h1, h2, fun g hg => lookup_cons_ne hg, ⟨?_, ?_, ?_⟩, ⟨_, lookup_cons_eq, rfl, ?_, ?_⟩, ?_, fun _ h => h, fun _ h => h⟩
    · intro g e' hg
      by_cases hgf : g = f
      · subst hgf
        rw [lookup_cons_eq] at hg
        cases hg
        exact ⟨h1, h2⟩
      · exact hc.slot g e' (by rw [← hg]; exact (lookup_cons_ne hgf).symm)
    · intro g e' hg hn hf
      have hgf : g ≠ f := fun e => hn (.inr e)
      exact hc.pos g e' (by rw [← hg]; exact (lookup_cons_ne hgf).symm) (fun p => hn (.inl p)) hf
    · intro g e' hg hn hf
      have hgf : g ≠ f := fun e => hn (.inr e)
      exact hc.neg g e' (by rw [← hg]; exact (lookup_cons_ne hgf).symm) (fun p => hn (.inl p)) hf
    · intro hp
      dsimp only at hp
      rw [Bool.or_eq_true] at hp
      rcases hp with hp | hp
      · exact .inr (hc.pos f e hl hP hp)
      · exact .inl hp
    · intro hp
      dsimp only at hp
      rw [Bool.or_eq_true] at hp
      rcases hp with hp | hp
      · exact .inr (hc.neg f e hl hP hp)
      · exact .inl (by simpa using hp)
    · intro hw
      cases pol with
      | true => exact hc.pos f e hl hP hw
      | false => exact hc.neg f e hl hP hw
  | none =>
    rw [hl] at he
    dsimp only at he
    cases he
    have hw : WF Γ (s.new (.pg f)) := h.new fun e he => (by cases he)
    have hcn := hc.new (.pg f)
    have hslot : (s.slots ++ [Slot.pg f])[slit s.slots.length true / 2]? = some (.pg f) := by rw [slit_div]; simp
    refine ⟨List.prefix_append _ _, List.prefix_append _ _, clsOf_new _, ⟨hw.rng, hw.nodup⟩, slit_mod _, hslot, fun g hg => lookup_cons_ne hg, ⟨?_, ?_, ?_⟩,
      ⟨_, lookup_cons_eq, rfl, fun e => .inl e, fun e => .inl (by simpa using e)⟩, fun e => (by cases e), fun n hb => hb.new _, fun n hn => ?_⟩
    · intro g e' hg
      by_cases hgf : g = f
      · subst hgf
        rw [lookup_cons_eq] at hg
        cases hg
        exact ⟨slit_mod _, hslot⟩
      · exact hcn.slot g e' (by rw [← hg]; exact (lookup_cons_ne hgf).symm)
    · intro g e' hg hn hf
      have hgf : g ≠ f := fun e => hn (.inr e)
      exact hcn.pos g e' (by rw [← hg]; exact (lookup_cons_ne hgf).symm) (fun p => hn (.inl p)) hf
    · intro g e' hg hn hf
      have hgf : g ≠ f := fun e => hn (.inr e)
      exact hcn.neg g e' (by rw [← hg]; exact (lookup_cons_ne hgf).symm) (fun p => hn (.inl p)) hf
    · have hn : Slot.name (.aux n) ∈ s.slots ++ [.pg f] := hn
      rcases List.mem_append.1 hn with hn | hn
      · exact hn
      · cases List.mem_singleton.1 hn

/-- after the definition of `f` is complete the cache is right for `f` again -/
theorem VarOk.close {P : Fm α → Prop} {Γ : List (List Nat)} {f : Fm α} {pol was : Bool} {s s1 s2 : PS α} {x : Nat} (h : VarOk P Γ f pol s was x s1) {M : Nat} (hM : M < sizeOf f)
    (hs : Step (fun g => P g ∨ g = f) Γ M s1 s2) (hi : Imp Γ s2 x pol f) : Step P Γ (sizeOf f) s s2 := by
  obtain ⟨e, h1, h2, h3, h4⟩ := h.look
  have hl : s2.cache.lookup f = some e := by rw [hs.frame f hM]; exact h1
  refine ⟨h.slots.trans hs.slots, h.ops.trans hs.ops, hs.wf, fun g hg => ?_, ⟨hs.cache.slot, fun g e' hg hn hf => ?_, fun g e' hg hn hf => ?_⟩, fun n hb => hs.bal n (h.bal n hb),
    fun n hn => h.aux n (hs.aux n hn)⟩
  · rw [hs.frame g (by omega)]
    exact h.frame g fun e => by subst e; omega
  · by_cases hgf : g = f
    · subst hgf
      rw [hl] at hg
      cases hg
      rw [h2]
      rcases h3 hf with h3 | h3
      · rw [h3] at hi; exact hi
      · exact h3.mono hs.slots hs.ops
    · exact hs.cache.pos g e' hg (fun hp => hp.elim hn hgf) hf
  · by_cases hgf : g = f
    · subst hgf
      rw [hl] at hg
      cases hg
      rw [h2]
      rcases h4 hf with h4 | h4
      · rw [h4] at hi; exact hi
      · exact h4.mono hs.slots hs.ops
    · exact hs.cache.neg g e' hg (fun hp => hp.elim hn hgf) hf

/-- nothing to do: the definition was there -/
theorem VarOk.same {P : Fm α → Prop} {Γ : List (List Nat)} {f : Fm α} {pol : Bool} {s s1 : PS α} {x : Nat} (h : VarOk P Γ f pol s true x s1) : Step P Γ (sizeOf f) s s1 := by
  have hpos : 0 < sizeOf f := by cases f <;> simp <;> omega
  exact h.close (M := 0) hpos (Step.refl h.wf h.cache) (h.was rfl)

theorem VarOk.fits {P : Fm α → Prop} {Γ : List (List Nat)} {f : Fm α} {pol was : Bool} {s s1 s2 : PS α} {x : Nat} (h : VarOk P Γ f pol s was x s1) (hp : s1.slots <+: s2.slots)
    {u : Nat → Bool} {v : α → Bool} (hf : Fits s2.slots v u) : lv u x = f.eval v := by
  rw [lv_even h.even, hf _ f (getElem_prefix hp h.slot)]

theorem VarOk.rng {P : Fm α → Prop} {Γ : List (List Nat)} {f : Fm α} {pol was : Bool} {s s1 s2 : PS α} {x : Nat} (h : VarOk P Γ f pol s was x s1) (hp : s1.slots <+: s2.slots) :
    x / 2 < s2.slots.length := (List.getElem?_eq_some_iff.1 (getElem_prefix hp h.slot)).1

/-! ### the transformation -/

/-- the transformation of `f` does what it should, in all states -/
def Spec (f : Fm α) : Prop := ∀ {P : Fm α → Prop} {Γ : List (List Nat)} {pol top : Bool} {s : PS α} {D : Option (List Nat)} {s' : PS α}, WF Γ s → (∀ g, P g → sizeOf f < sizeOf g) →
  CacheOk P Γ s → pg f pol top s = some (D, s') → Res P Γ f pol top s D s'

omit [DecidableEq α] in
theorem addNonNil_slots (s : PS α) (D : Option (List Nat)) : (s.addNonNil D).slots = s.slots := by cases D <;> rfl

theorem Step.addNonNil {P : Fm α → Prop} {Γ : List (List Nat)} {N : Nat} {s s' : PS α} (h : Step P Γ N s s') {D : Option (List Nat)} (hc : ∀ c, D = some c → ∀ l ∈ c, l / 2 < s'.slots.length) :
    Step P Γ N s (s'.addNonNil D) := by
  cases D with
  | none => exact h
  | some c => exact h.add (hc c rfl)

omit [DecidableEq α] in
theorem models_addNonNil {Γ : List (List Nat)} {s : PS α} {D : Option (List Nat)} {u : Nat → Bool} (h : Models (Γ ++ clsOf (s.addNonNil D).ops) u) :
    Models (Γ ++ clsOf s.ops) u ∧ ∀ c, D = some c → Sat.Sat u c := by
  cases D with
  | none => exact ⟨h, fun _ e => (by cases e)⟩
  | some c =>
    refine ⟨models_prefix h (List.prefix_append _ _), fun d e => ?_⟩
    cases e
    refine h c (List.mem_append_right _ ?_)
    show c ∈ clsOf (s.ops ++ [.add c])
    rw [clsOf_add]; simp

omit [DecidableEq α] in
theorem models_add {Γ : List (List Nat)} {s : PS α} {c : List Nat} {u : Nat → Bool} (h : Models (Γ ++ clsOf (s.add c).ops) u) : Models (Γ ++ clsOf s.ops) u ∧ Sat.Sat u c :=
  let ⟨a, b⟩ := models_addNonNil (D := some c) h
  ⟨a, b c rfl⟩

omit [DecidableEq α] in
theorem Compl.addNonNil {K : (α → Bool) → Prop} {s s' : PS α} (h : Compl K s s') {D : Option (List Nat)}
    (hc : ∀ u v, Agree s'.slots v u → Fits s'.slots v u → K v → ∀ c, D = some c → Sat.Sat u c) : Compl K s (s'.addNonNil D) := by
  cases D with
  | none => exact h
  | some c => exact h.add fun u v ha hf hk => hc u v ha hf hk c rfl

theorem pgTop_spec {P : Fm α → Prop} {Γ : List (List Nat)} {N : Nat} {pol : Bool} (hP : ∀ g, P g → N < sizeOf g) : ∀ {fs : List (Fm α)} {s s' : PS α}, (∀ f ∈ fs, Spec f) →
    (∀ f ∈ fs, sizeOf f ≤ N) → WF Γ s → CacheOk P Γ s → pgTop fs pol s = some s' →
    Step P Γ N s s' ∧ Compl (fun v => ∀ f ∈ fs, f.eval v = pol) s s' ∧ ∀ u v, Models (Γ ++ clsOf s'.ops) u → Agree s'.slots v u → ∀ f ∈ fs, f.eval v = pol
  | [], s, s', _, _, hw, hc, he => by
    rw [pgTop] at he
    cases he
    exact ⟨Step.refl hw hc, Compl.refl _, fun _ _ _ _ f hf => (by cases hf)⟩
  | f :: fs, s, s', hs, hN, hw, hc, he => by
    rw [pgTop] at he
    cases h1 : pg f pol true s with
    | none => rw [h1] at he; cases he
    | some x =>
      obtain ⟨c, s1⟩ := x
      rw [h1] at he
      dsimp only at he
      have hf := hN f List.mem_cons_self
      have r := hs f List.mem_cons_self hw (fun g hg => Nat.lt_of_le_of_lt hf (hP g hg)) hc h1
      have st := (r.step.weaken hf).addNonNil r.rng
      obtain ⟨a1, a2, a3⟩ := pgTop_spec hP (fun g hg => hs g (List.mem_cons_of_mem _ hg)) (fun g hg => hN g (List.mem_cons_of_mem _ hg)) st.wf st.cache he
      have cm : Compl (fun v => ∀ g ∈ f :: fs, g.eval v = pol) s (s1.addNonNil c) := (r.compl.weaken fun v hv _ => hv f List.mem_cons_self).addNonNil
        fun u v ha hf hk => r.dcompl u v ha hf (hk f List.mem_cons_self)
      refine ⟨st.trans a1, cm.trans (a2.weaken fun v hv g hg => hv g (List.mem_cons_of_mem _ hg)) a1, fun u v hu ha g hg => ?_⟩
      rcases List.mem_cons.1 hg with rfl | hg
      · obtain ⟨b1, b2⟩ := models_addNonNil (models_prefix hu a1.ops)
        have ha1 := ha.mono a1.slots
        rw [addNonNil_slots] at ha1
        exact r.sound u v b1 ha1 b2
      · exact a3 u v hu ha g hg

theorem Res.some {P : Fm α → Prop} {Γ : List (List Nat)} {f : Fm α} {pol : Bool} {s s' : PS α} {D : Option (List Nat)} (h : Res P Γ f pol false s D s') : D = some (D.getD []) := by
  cases D with
  | none => exact absurd rfl (h.nil rfl)
  | some c => rfl

theorem pgDef_spec {P : Fm α → Prop} {Γ : List (List Nat)} {N : Nat} {pol : Bool} {x : Nat} (hP : ∀ g, P g → N < sizeOf g) : ∀ {fs : List (Fm α)} {s s' : PS α}, (∀ f ∈ fs, Spec f) →
    (∀ f ∈ fs, sizeOf f ≤ N) → WF Γ s → CacheOk P Γ s → x / 2 < s.slots.length → pgDef fs pol x s = some s' →
    Step P Γ N s s' ∧ (∀ u v, Agree s'.slots v u → Fits s'.slots v u → (lv u x = true ∨ ∀ f ∈ fs, f.eval v = pol) → Models (clsOf s.ops) u → Models (clsOf s'.ops) u) ∧
      ∀ u v, Models (Γ ++ clsOf s'.ops) u → Agree s'.slots v u → lv u x = false → ∀ f ∈ fs, f.eval v = pol
  | [], s, s', _, _, hw, hc, _, he => by
    rw [pgDef] at he
    cases he
    exact ⟨Step.refl hw hc, fun _ _ _ _ _ h => h, fun _ _ _ _ _ f hf => (by cases hf)⟩
  | f :: fs, s, s', hs, hN, hw, hc, hx, he => by
    rw [pgDef] at he
    cases h1 : pg f pol false s with
    | none => rw [h1] at he; cases he
    | some y =>
      obtain ⟨c, s1⟩ := y
      rw [h1] at he
      dsimp only at he
      have hf := hN f List.mem_cons_self
      have r := hs f List.mem_cons_self hw (fun g hg => Nat.lt_of_le_of_lt hf (hP g hg)) hc h1
      have hx1 : x / 2 < s1.slots.length := Nat.lt_of_lt_of_le hx r.step.slots.length_le
      have st : Step P Γ N s (s1.add (x :: c.getD [])) := (r.step.weaken hf).add fun l hl => by
        rcases List.mem_cons.1 hl with rfl | hl
        · exact hx1
        · exact r.rng _ r.some l hl
      obtain ⟨a1, a2, a3⟩ := pgDef_spec hP (fun g hg => hs g (List.mem_cons_of_mem _ hg)) (fun g hg => hN g (List.mem_cons_of_mem _ hg)) st.wf st.cache hx1 he
      refine ⟨st.trans a1, fun u v ha hf hk hm => a2 u v ha hf (hk.imp id fun h g hg => h g (List.mem_cons_of_mem _ hg)) ?_, fun u v hu ha hxf g hg => ?_⟩
      · have ha1 : Agree s1.slots v u := ha.mono a1.slots
        have hf1 : Fits s1.slots v u := hf.mono a1.slots
        intro d hd
        have hd : d ∈ clsOf (s1.ops ++ [.add (x :: c.getD [])]) := hd
        rw [clsOf_add] at hd
        rcases List.mem_append.1 hd with hd | hd
        · exact r.compl u v ha1 hf1 (fun e => (by cases e)) hm d hd
        · rw [List.mem_singleton.1 hd, sat_cons]
          rcases hk with hk | hk
          · exact .inl hk
          · exact .inr (r.dcompl u v ha1 hf1 (hk f List.mem_cons_self) _ r.some)
      · rcases List.mem_cons.1 hg with rfl | hg
        · obtain ⟨b1, b2⟩ := models_add (models_prefix hu a1.ops)
          refine r.sound u v b1 (ha.mono a1.slots) fun d hd => ?_
          have := r.some
          rw [hd] at this
          rw [sat_cons, hxf] at b2
          injection this with this
          rw [this]
          simpa [hd] using b2
        · exact a3 u v hu ha hxf g hg

theorem pgOne_spec {P : Fm α → Prop} {Γ : List (List Nat)} {N : Nat} {pol : Bool} (hP : ∀ g, P g → N < sizeOf g) : ∀ {fs : List (Fm α)} {s s' : PS α} {cs : List Nat}, (∀ f ∈ fs, Spec f) →
    (∀ f ∈ fs, sizeOf f ≤ N) → WF Γ s → CacheOk P Γ s → pgOne fs pol s = some (cs, s') →
    Step P Γ N s s' ∧ Compl (fun _ => True) s s' ∧ (∀ l ∈ cs, l / 2 < s'.slots.length) ∧
      (∀ u v, Models (Γ ++ clsOf s'.ops) u → Agree s'.slots v u → Sat.Sat u cs → ∃ f ∈ fs, f.eval v = pol) ∧
      ∀ u v, Agree s'.slots v u → Fits s'.slots v u → (∃ f ∈ fs, f.eval v = pol) → Sat.Sat u cs
  | [], s, s', cs, _, _, hw, hc, he => by
    rw [pgOne] at he
    cases he
    exact ⟨Step.refl hw hc, Compl.refl _, fun _ h => (by cases h), fun _ _ _ _ ⟨_, h, _⟩ => (by cases h), fun _ _ _ _ ⟨_, h, _⟩ => (by cases h)⟩
  | f :: fs, s, s', cs, hs, hN, hw, hc, he => by
    rw [pgOne] at he
    cases h1 : pg f pol false s with
    | none => rw [h1] at he; cases he
    | some y =>
      obtain ⟨c, s1⟩ := y
      rw [h1] at he
      dsimp only at he
      have hf := hN f List.mem_cons_self
      have r := hs f List.mem_cons_self hw (fun g hg => Nat.lt_of_le_of_lt hf (hP g hg)) hc h1
      have st := r.step.weaken hf
      cases h2 : pgOne fs pol s1 with
      | none => rw [h2] at he; cases he
      | some z =>
        obtain ⟨ds, s2⟩ := z
        rw [h2] at he
        cases he
        obtain ⟨a1, a2, a3, a4, a5⟩ := pgOne_spec hP (fun g hg => hs g (List.mem_cons_of_mem _ hg)) (fun g hg => hN g (List.mem_cons_of_mem _ hg)) st.wf st.cache h2
        have cm : Compl (fun _ => True) s s1 := r.compl.weaken fun v _ e => (by cases e)
        refine ⟨st.trans a1, cm.trans a2 a1, fun l hl => ?_, fun u v hu ha hsat => ?_, fun u v ha hft ⟨g, hg, hv⟩ => ?_⟩
        · rcases List.mem_append.1 hl with hl | hl
          · exact Nat.lt_of_lt_of_le (r.rng _ r.some l hl) a1.slots.length_le
          · exact a3 l hl
        · rcases sat_append.1 hsat with hsat | hsat
          · refine ⟨f, List.mem_cons_self, r.sound u v (models_prefix hu a1.ops) (ha.mono a1.slots) fun d hd => ?_⟩
            rw [hd] at hsat; exact hsat
          · obtain ⟨g, hg, hv⟩ := a4 u v hu ha hsat
            exact ⟨g, List.mem_cons_of_mem _ hg, hv⟩
        · rw [sat_append]
          rcases List.mem_cons.1 hg with rfl | hg
          · exact .inl (r.dcompl u v (ha.mono a1.slots) (hft.mono a1.slots) hv _ r.some)
          · exact .inr (a5 u v ha hft ⟨g, hg, hv⟩)

theorem equivOps_spec {P : Fm α → Prop} {Γ : List (List Nat)} {N : Nat} {a b : Fm α} (hP : ∀ g, P g → N < sizeOf g) (sa : Spec a) (sb : Spec b) (ha : sizeOf a ≤ N) (hb : sizeOf b ≤ N)
    {s s' : PS α} (hw : WF Γ s) (hc : CacheOk P Γ s) {lp ln rp rn : List Nat}
    (he : equivOps (fun p s => pg a p false s) (fun p s => pg b p false s) s = some (lp, ln, rp, rn, s')) :
    Step P Γ N s s' ∧ Compl (fun _ => True) s s' ∧
    (∀ c ∈ [lp, ln, rp, rn], ∀ l ∈ c, l / 2 < s'.slots.length) ∧
    (∀ u v, Models (Γ ++ clsOf s'.ops) u → Agree s'.slots v u → (Sat.Sat u lp → a.eval v = true) ∧ (Sat.Sat u ln → a.eval v = false) ∧ (Sat.Sat u rp → b.eval v = true) ∧
      (Sat.Sat u rn → b.eval v = false)) ∧
    (∀ u v, Agree s'.slots v u → Fits s'.slots v u → (a.eval v = true → Sat.Sat u lp) ∧ (a.eval v = false → Sat.Sat u ln) ∧ (b.eval v = true → Sat.Sat u rp) ∧
      (b.eval v = false → Sat.Sat u rn)) := by
  unfold equivOps at he
  dsimp only at he
  cases h1 : pg a true false s with
  | none => rw [h1] at he; cases he
  | some x1 =>
    obtain ⟨d1, s1⟩ := x1
    rw [h1] at he
    dsimp only at he
    have r1 := sa hw (fun g hg => Nat.lt_of_le_of_lt ha (hP g hg)) hc h1
    cases h2 : pg a false false s1 with
    | none => rw [h2] at he; cases he
    | some x2 =>
      obtain ⟨d2, s2⟩ := x2
      rw [h2] at he
      dsimp only at he
      have r2 := sa r1.step.wf (fun g hg => Nat.lt_of_le_of_lt ha (hP g hg)) r1.step.cache h2
      cases h3 : pg b true false s2 with
      | none => rw [h3] at he; cases he
      | some x3 =>
        obtain ⟨d3, s3⟩ := x3
        rw [h3] at he
        dsimp only at he
        have r3 := sb r2.step.wf (fun g hg => Nat.lt_of_le_of_lt hb (hP g hg)) r2.step.cache h3
        cases h4 : pg b false false s3 with
        | none => rw [h4] at he; cases he
        | some x4 =>
          obtain ⟨d4, s4⟩ := x4
          rw [h4] at he
          have r4 := sb r3.step.wf (fun g hg => Nat.lt_of_le_of_lt hb (hP g hg)) r3.step.cache h4
          cases he
          have t4 := r4.step.weaken hb
          have t3 := (r3.step.weaken hb).trans t4
          have t2 := (r2.step.weaken ha).trans t3
          have t1 := (r1.step.weaken ha).trans t2
          have k : ∀ v : α → Bool, ∀ f : Fm α, ∀ p, (fun _ => True) v → false = true → f.eval v = p := fun _ _ _ _ e => (by cases e)
          refine ⟨t1, ?_, ?_, ?_, ?_⟩
          · exact (r1.compl.weaken fun v => k v a true).trans ((r2.compl.weaken fun v => k v a false).trans ((r3.compl.weaken fun v => k v b true).trans (r4.compl.weaken fun v => k v b false) t4) t3) t2
          · intro c hc l hl
            simp only [List.mem_cons, List.not_mem_nil, or_false] at hc
            rcases hc with rfl | rfl | rfl | rfl
            · exact Nat.lt_of_lt_of_le (r1.rng _ r1.some l hl) t2.slots.length_le
            · exact Nat.lt_of_lt_of_le (r2.rng _ r2.some l hl) t3.slots.length_le
            · exact Nat.lt_of_lt_of_le (r3.rng _ r3.some l hl) t4.slots.length_le
            · exact r4.rng _ r4.some l hl
          · intro u v hu hag
            refine ⟨fun h => ?_, fun h => ?_, fun h => ?_, fun h => ?_⟩
            · exact r1.sound u v (models_prefix hu t2.ops) (hag.mono t2.slots) fun d hd => by rw [hd] at h; exact h
            · exact r2.sound u v (models_prefix hu t3.ops) (hag.mono t3.slots) fun d hd => by rw [hd] at h; exact h
            · exact r3.sound u v (models_prefix hu t4.ops) (hag.mono t4.slots) fun d hd => by rw [hd] at h; exact h
            · exact r4.sound u v hu hag fun d hd => by rw [hd] at h; exact h
          · intro u v hag hf
            exact ⟨fun h => r1.dcompl u v (hag.mono t2.slots) (hf.mono t2.slots) h _ r1.some, fun h => r2.dcompl u v (hag.mono t3.slots) (hf.mono t3.slots) h _ r2.some,
              fun h => r3.dcompl u v (hag.mono t4.slots) (hf.mono t4.slots) h _ r3.some, fun h => r4.dcompl u v hag hf h _ r4.some⟩

theorem size_mem_and {f : Fm α} {fs : List (Fm α)} (h : f ∈ fs) : sizeOf f < sizeOf (Fm.and fs) := by
  have := List.sizeOf_lt_of_mem h
  show sizeOf f < sizeOf (Fm.and fs)
  simp; omega
theorem size_mem_or {f : Fm α} {fs : List (Fm α)} (h : f ∈ fs) : sizeOf f < sizeOf (Fm.or fs) := by
  have := List.sizeOf_lt_of_mem h
  show sizeOf f < sizeOf (Fm.or fs)
  simp; omega

/-- the sub-results while `f` is being defined -/
theorem pend {P : Fm α → Prop} {f : Fm α} (hP : ∀ g, P g → sizeOf f < sizeOf g) {N : Nat} (hN : N < sizeOf f) : ∀ g, (P g ∨ g = f) → N < sizeOf g := by
  rintro g (h | rfl)
  · have := hP g h; omega
  · exact hN

/-- a formula with a variable: result if it was defined before -/
theorem res_was {P : Fm α → Prop} {Γ : List (List Nat)} {f : Fm α} {pol : Bool} {s s1 : PS α} {x : Nat} (h : VarOk P Γ f pol s true x s1) :
    Res P Γ f pol false s (some [if pol then x else Sat.neg x]) s1 := by
  refine ⟨h.same, fun u v _ _ _ hm => by rw [h.cls]; exact hm, fun c hc l hl => ?_, fun _ => by simp, fun u v hu ha hs => ?_, fun u v ha hf hv c hc => ?_⟩
  · cases hc
    rw [List.mem_singleton.1 hl]
    have := h.rng (List.prefix_refl _)
    cases pol
    · rw [if_neg (by simp), Sat.neg_var]; exact this
    · exact this
  · have hs := hs _ rfl
    rw [sat_single] at hs
    refine h.was rfl u v hu ha ?_
    cases pol
    · rw [if_neg (by simp), lv_neg] at hs; simpa using hs
    · exact hs
  · cases hc
    rw [sat_single]
    have := h.fits (List.prefix_refl _) hf
    cases pol
    · rw [if_neg (by simp), lv_neg, this, hv]; rfl
    · rw [if_pos rfl, this, hv]

/-- a formula with a variable: result after the definition -/
theorem res_def {P : Fm α → Prop} {Γ : List (List Nat)} {f : Fm α} {pol was : Bool} {s s1 s2 : PS α} {x : Nat} (h : VarOk P Γ f pol s was x s1) {M : Nat} (hM : M < sizeOf f)
    (hs : Step (fun g => P g ∨ g = f) Γ M s1 s2) (hi : Imp Γ s2 x pol f)
    (hc : ∀ u v, Agree s2.slots v u → Fits s2.slots v u → Models (clsOf s1.ops) u → Models (clsOf s2.ops) u) :
    Res P Γ f pol false s (some [if pol then x else Sat.neg x]) s2 := by
  refine ⟨h.close hM hs hi, fun u v ha hf _ hm => hc u v ha hf (by rw [h.cls]; exact hm), fun c hc l hl => ?_, fun _ => by simp, fun u v hu ha hs => ?_, fun u v ha hf hv c hc => ?_⟩
  · cases hc
    rw [List.mem_singleton.1 hl]
    have := h.rng hs.slots
    cases pol
    · rw [if_neg (by simp), Sat.neg_var]; exact this
    · exact this
  · have hs := hs _ rfl
    rw [sat_single] at hs
    refine hi u v hu ha ?_
    cases pol
    · rw [if_neg (by simp), lv_neg] at hs; simpa using hs
    · exact hs
  · cases hc
    rw [sat_single]
    have := h.fits hs.slots hf
    cases pol
    · rw [if_neg (by simp), lv_neg, this, hv]; rfl
    · rw [if_pos rfl, this, hv]

theorem pg_spec (f : Fm α) : Spec f := by
  induction f using Fm.ind with
  | hf => intro P Γ pol top s D s' hw hP hc he; rw [pg] at he <;> first | cases he | (intros; contradiction)
  | ht => intro P Γ pol top s D s' hw hP hc he; rw [pg] at he <;> first | cases he | (intros; contradiction)
  | hc c k xs => intro P Γ pol top s D s' hw hP hc he; rw [pg] at he <;> first | cases he | (intros; contradiction)
  | hp c k ts => intro P Γ pol top s D s' hw hP hc he; rw [pg] at he <;> first | cases he | (intros; contradiction)
  | hl l =>
    intro P Γ pol top s D s' hw hP hc he
    rw [pg] at he
    obtain ⟨h1, h2⟩ := solverLit_spec (N := sizeOf (Fm.lit l)) hw hc (usr l) (fun n e => (by cases e))
    generalize hx : solverLit (usr l) s = p at he h1 h2
    obtain ⟨x, s1⟩ := p
    cases he
    refine ⟨h2, fun u v _ _ _ hm => by rw [h1.cls]; exact hm, fun c hc l' hl' => ?_, fun _ => by simp, fun u v hu ha hs => ?_, fun u v ha hf hv c hc => ?_⟩
    · cases hc
      rw [List.mem_singleton.1 hl']
      have := h1.rng
      cases pol
      · rw [if_neg (by simp), Sat.neg_var]; exact this
      · exact this
    · have hs := hs _ rfl
      rw [sat_single] at hs
      have := h1.eval ha
      rw [Fm.eval_lit, ← this]
      cases pol
      · rw [if_neg (by simp), lv_neg] at hs; simpa using hs
      · exact hs
    · cases hc
      rw [sat_single]
      have := h1.eval ha
      rw [Fm.eval_lit, ← this] at hv
      cases pol
      · rw [if_neg (by simp), lv_neg, hv]; rfl
      · exact hv
  | hn f ih =>
    intro P Γ pol top s D s' hw hP hc he
    rw [pg] at he
    have hsz : sizeOf f < sizeOf (Fm.not f) := by simp
    have r := ih hw (fun g hg => Nat.lt_trans hsz (hP g hg)) hc he
    have conv : ∀ v : α → Bool, (Fm.not f).eval v = pol ↔ f.eval v = !pol := by
      intro v; rw [Fm.eval_not]; cases f.eval v <;> cases pol <;> simp
    exact ⟨r.step.weaken (by omega), r.compl.weaken fun v h e => (conv v).1 (h e), r.rng, r.nil, fun u v hu ha hs => (conv v).2 (r.sound u v hu ha hs),
      fun u v ha hf hv => r.dcompl u v ha hf ((conv v).1 hv)⟩
  | ha fs ih =>
    intro P Γ pol top s D s' hw hP hc he
    rw [pg] at he
    obtain ⟨N, hN⟩ : ∃ N, N + 1 = sizeOf (Fm.and fs) := ⟨sizeOf (Fm.and fs) - 1, by simp; omega⟩
    have hsz : ∀ f ∈ fs, sizeOf f ≤ N := fun f hf => by have := size_mem_and hf; omega
    have hall : ∀ v : α → Bool, (Fm.and fs).eval v = true ↔ ∀ f ∈ fs, f.eval v = true := fun v => by simp
    have hex : ∀ v : α → Bool, (Fm.and fs).eval v = false ↔ ∃ f ∈ fs, f.eval v = false := fun v => by simp
    cases pol with
    | true =>
      rw [if_pos rfl] at he
      cases top with
      | true =>
        rw [if_pos rfl] at he
        cases h1 : pgTop fs true s with
        | none => rw [h1] at he; cases he
        | some s1 =>
          rw [h1] at he
          cases he
          obtain ⟨a1, a2, a3⟩ := pgTop_spec (N := N) (fun g hg => by have := hP g hg; omega) ih hsz hw hc h1
          exact ⟨a1.weaken (by omega), a2.weaken fun v h => (hall v).1 (h rfl), fun _ e => (by cases e), fun e => (by cases e), fun u v hu ha _ => (hall v).2 (a3 u v hu ha),
            fun _ _ _ _ _ _ e => (by cases e)⟩
      | false =>
        rw [if_neg (by simp)] at he
        generalize hx : getPGVar (Fm.and fs) true s = p at he
        obtain ⟨was, x, s1⟩ := p
        have hv := getPGVar_spec hw hc (fun h => Nat.lt_irrefl _ (hP _ h)) hx
        dsimp only at he
        cases was with
        | true => rw [if_pos rfl] at he; cases he; exact res_was hv
        | false =>
          rw [if_neg (by simp)] at he
          cases h1 : pgDef fs true (Sat.neg x) s1 with
          | none => rw [h1] at he; cases he
          | some s2 =>
            rw [h1] at he
            cases he
            have hx1 : Sat.neg x / 2 < s1.slots.length := by rw [Sat.neg_var]; exact hv.rng (List.prefix_refl _)
            obtain ⟨a1, a2, a3⟩ := pgDef_spec (N := N) (pend hP (by omega)) ih hsz hv.wf hv.cache hx1 h1
            refine res_def hv (M := N) (by omega) a1 (fun u v hu ha hxt => (hall v).2 (a3 u v hu ha (by rw [lv_neg, hxt]; rfl))) fun u v ha hf hm => a2 u v ha hf ?_ hm
            have := hv.fits a1.slots hf
            cases hev : (Fm.and fs).eval v with
            | true => exact .inr ((hall v).1 hev)
            | false => left; rw [lv_neg, this, hev]; rfl
    | false =>
      rw [if_neg (by simp)] at he
      cases h1 : pgOne fs false s with
      | none => rw [h1] at he; cases he
      | some z =>
        obtain ⟨cs, s1⟩ := z
        rw [h1] at he
        cases he
        obtain ⟨a1, a2, a3, a4, a5⟩ := pgOne_spec (N := N) (fun g hg => by have := hP g hg; omega) ih hsz hw hc h1
        exact ⟨a1.weaken (by omega), a2.weaken fun _ _ => trivial, fun c e => by cases e; exact a3, fun _ => by simp, fun u v hu ha hs => (hex v).2 (a4 u v hu ha (hs _ rfl)),
          fun u v ha hf hv c e => by cases e; exact a5 u v ha hf ((hex v).1 hv)⟩
  | ho fs ih =>
    intro P Γ pol top s D s' hw hP hc he
    rw [pg] at he
    obtain ⟨N, hN⟩ : ∃ N, N + 1 = sizeOf (Fm.or fs) := ⟨sizeOf (Fm.or fs) - 1, by simp; omega⟩
    have hsz : ∀ f ∈ fs, sizeOf f ≤ N := fun f hf => by have := size_mem_or hf; omega
    have hall : ∀ v : α → Bool, (Fm.or fs).eval v = false ↔ ∀ f ∈ fs, f.eval v = false := fun v => by simp
    have hex : ∀ v : α → Bool, (Fm.or fs).eval v = true ↔ ∃ f ∈ fs, f.eval v = true := fun v => by simp
    cases pol with
    | false =>
      rw [if_neg (by simp)] at he
      cases top with
      | true =>
        rw [if_pos rfl] at he
        cases h1 : pgTop fs false s with
        | none => rw [h1] at he; cases he
        | some s1 =>
          rw [h1] at he
          cases he
          obtain ⟨a1, a2, a3⟩ := pgTop_spec (N := N) (fun g hg => by have := hP g hg; omega) ih hsz hw hc h1
          exact ⟨a1.weaken (by omega), a2.weaken fun v h => (hall v).1 (h rfl), fun _ e => (by cases e), fun e => (by cases e), fun u v hu ha _ => (hall v).2 (a3 u v hu ha),
            fun _ _ _ _ _ _ e => (by cases e)⟩
      | false =>
        rw [if_neg (by simp)] at he
        generalize hx : getPGVar (Fm.or fs) false s = p at he
        obtain ⟨was, x, s1⟩ := p
        have hv := getPGVar_spec hw hc (fun h => Nat.lt_irrefl _ (hP _ h)) hx
        dsimp only at he
        cases was with
        | true => rw [if_pos rfl] at he; cases he; exact res_was hv
        | false =>
          rw [if_neg (by simp)] at he
          cases h1 : pgDef fs false x s1 with
          | none => rw [h1] at he; cases he
          | some s2 =>
            rw [h1] at he
            cases he
            have hx1 : x / 2 < s1.slots.length := hv.rng (List.prefix_refl _)
            obtain ⟨a1, a2, a3⟩ := pgDef_spec (N := N) (pend hP (by omega)) ih hsz hv.wf hv.cache hx1 h1
            refine res_def hv (M := N) (by omega) a1 (fun u v hu ha hxf => (hall v).2 (a3 u v hu ha hxf)) fun u v ha hf hm => a2 u v ha hf ?_ hm
            have := hv.fits a1.slots hf
            cases hev : (Fm.or fs).eval v with
            | false => exact .inr ((hall v).1 hev)
            | true => left; rw [this, hev]
    | true =>
      rw [if_pos rfl] at he
      cases h1 : pgOne fs true s with
      | none => rw [h1] at he; cases he
      | some z =>
        obtain ⟨cs, s1⟩ := z
        rw [h1] at he
        cases he
        obtain ⟨a1, a2, a3, a4, a5⟩ := pgOne_spec (N := N) (fun g hg => by have := hP g hg; omega) ih hsz hw hc h1
        exact ⟨a1.weaken (by omega), a2.weaken fun _ _ => trivial, fun c e => by cases e; exact a3, fun _ => by simp, fun u v hu ha hs => (hex v).2 (a4 u v hu ha (hs _ rfl)),
          fun u v ha hf hv c e => by cases e; exact a5 u v ha hf ((hex v).1 hv)⟩
  | hi a b iha ihb =>
    intro P Γ pol top s D s' hw hP hc he
    rw [pg] at he
    have hsa : sizeOf a < sizeOf (Fm.impl a b) := by simp; omega
    have hsb : sizeOf b < sizeOf (Fm.impl a b) := by simp; omega
    have ht : ∀ v : α → Bool, (Fm.impl a b).eval v = true ↔ a.eval v = false ∨ b.eval v = true := fun v => by
      rw [Fm.eval_impl]; cases a.eval v <;> cases b.eval v <;> simp
    have hf' : ∀ v : α → Bool, (Fm.impl a b).eval v = false ↔ a.eval v = true ∧ b.eval v = false := fun v => by
      rw [Fm.eval_impl]; cases a.eval v <;> cases b.eval v <;> simp
    cases pol with
    | true =>
      rw [if_pos rfl] at he
      cases h1 : pg a false false s with
      | none => rw [h1] at he; cases he
      | some y =>
        obtain ⟨l, s1⟩ := y
        rw [h1] at he
        dsimp only at he
        have r1 := iha hw (fun g hg => Nat.lt_trans hsa (hP g hg)) hc h1
        cases h2 : pg b true false s1 with
        | none => rw [h2] at he; cases he
        | some z =>
          obtain ⟨r, s2⟩ := z
          rw [h2] at he
          cases he
          have r2 := ihb r1.step.wf (fun g hg => Nat.lt_trans hsb (hP g hg)) r1.step.cache h2
          have t2 := r2.step.weaken (M := sizeOf (Fm.impl a b)) (by omega)
          refine ⟨(r1.step.weaken (by omega)).trans t2, (r1.compl.weaken fun v _ e => (by cases e)).trans (r2.compl.weaken fun v _ e => (by cases e)) t2, fun c e x hx => ?_, fun _ => by simp,
            fun u v hu ha hs => ?_, fun u v ha hf hv c e => ?_⟩
          · cases e
            rcases List.mem_append.1 hx with hx | hx
            · exact Nat.lt_of_lt_of_le (r1.rng _ r1.some x hx) t2.slots.length_le
            · exact r2.rng _ r2.some x hx
          · rw [ht]
            rcases sat_append.1 (hs _ rfl) with h | h
            · exact .inl (r1.sound u v (models_prefix hu t2.ops) (ha.mono t2.slots) fun d hd => by rw [hd] at h; exact h)
            · exact .inr (r2.sound u v hu ha fun d hd => by rw [hd] at h; exact h)
          · cases e
            rw [sat_append]
            rcases (ht v).1 hv with h | h
            · exact .inl (r1.dcompl u v (ha.mono t2.slots) (hf.mono t2.slots) h _ r1.some)
            · exact .inr (r2.dcompl u v ha hf h _ r2.some)
    | false =>
      rw [if_neg (by simp)] at he
      cases top with
      | true =>
        rw [if_pos rfl] at he
        cases h1 : pg a true true s with
        | none => rw [h1] at he; cases he
        | some y =>
          obtain ⟨l, s1⟩ := y
          rw [h1] at he
          dsimp only at he
          have r1 := iha hw (fun g hg => Nat.lt_trans hsa (hP g hg)) hc h1
          cases h2 : pg b false true s1 with
          | none => rw [h2] at he; cases he
          | some z =>
            obtain ⟨r, s2⟩ := z
            rw [h2] at he
            cases he
            have r2 := ihb r1.step.wf (fun g hg => Nat.lt_trans hsb (hP g hg)) r1.step.cache h2
            have t2 := r2.step.weaken (M := sizeOf (Fm.impl a b)) (by omega)
            have t12 := (r1.step.weaken (M := sizeOf (Fm.impl a b)) (by omega)).trans t2
            have t3 := t12.addNonNil (D := l) fun c e x hx => Nat.lt_of_lt_of_le (r1.rng c e x hx) t2.slots.length_le
            have t4 := t3.addNonNil (D := r) fun c e x hx => by rw [addNonNil_slots]; exact r2.rng c e x hx
            have hs4 : ((s2.addNonNil l).addNonNil r).slots = s2.slots := by rw [addNonNil_slots, addNonNil_slots]
            have c2 : Compl (fun v => true = true → (Fm.impl a b).eval v = false) s s2 :=
              (r1.compl.weaken fun v h _ => ((hf' v).1 (h rfl)).1).trans (r2.compl.weaken fun v h _ => ((hf' v).1 (h rfl)).2) t2
            refine ⟨t4, ?_, fun c e => (by cases e), fun e => (by cases e), fun u v hu ha _ => ?_, fun u v ha hf hv c e => (by cases e)⟩
            · refine (c2.addNonNil (D := l) fun u v ha hf hk => r1.dcompl u v (ha.mono t2.slots) (hf.mono t2.slots) ((hf' v).1 (hk rfl)).1).addNonNil fun u v ha hf hk => ?_
              rw [addNonNil_slots] at ha hf
              exact r2.dcompl u v ha hf ((hf' v).1 (hk rfl)).2
            · obtain ⟨b1, b2⟩ := models_addNonNil hu
              obtain ⟨b3, b4⟩ := models_addNonNil b1
              rw [hs4] at ha
              exact (hf' v).2 ⟨r1.sound u v (models_prefix b3 t2.ops) (ha.mono t2.slots) b4, r2.sound u v b3 ha b2⟩
      | false =>
        rw [if_neg (by simp)] at he
        generalize hx : getPGVar (Fm.impl a b) false s = p at he
        obtain ⟨was, x, s1⟩ := p
        have hv := getPGVar_spec hw hc (fun h => Nat.lt_irrefl _ (hP _ h)) hx
        dsimp only at he
        cases was with
        | true => rw [if_pos rfl] at he; cases he; exact res_was hv
        | false =>
          rw [if_neg (by simp)] at he
          obtain ⟨N, hN⟩ : ∃ N, N + 1 = sizeOf (Fm.impl a b) := ⟨sizeOf (Fm.impl a b) - 1, by simp; omega⟩
          cases h1 : pg a true false s1 with
          | none => rw [h1] at he; cases he
          | some y =>
            obtain ⟨l, s2⟩ := y
            rw [h1] at he
            dsimp only at he
            have r1 := iha hv.wf (pend hP hsa) hv.cache h1
            cases h2 : pg b false false s2 with
            | none => rw [h2] at he; cases he
            | some z =>
              obtain ⟨r, s3⟩ := z
              rw [h2] at he
              cases he
              have r2 := ihb r1.step.wf (pend hP hsb) r1.step.cache h2
              have t2 := r2.step.weaken (M := N) (by omega)
              have t12 := (r1.step.weaken (M := N) (by omega)).trans t2
              have hxr := hv.rng t12.slots
              have t3 := t12.add (c := x :: l.getD []) fun y hy => by
                rcases List.mem_cons.1 hy with rfl | hy
                · exact hxr
                · exact Nat.lt_of_lt_of_le (r1.rng _ r1.some y hy) t2.slots.length_le
              have t4 := t3.add (c := x :: r.getD []) fun y hy => by
                rcases List.mem_cons.1 hy with rfl | hy
                · exact hxr
                · exact r2.rng _ r2.some y hy
              refine res_def (pol := false) hv (M := N) (by omega) t4 (fun u v hu ha hxf => ?_) fun u v ha hf hm => ?_
              · obtain ⟨b1, b2⟩ := models_add hu
                obtain ⟨b3, b4⟩ := models_add b1
                rw [sat_cons, hxf] at b2 b4
                refine (hf' v).2 ⟨r1.sound u v (models_prefix b3 t2.ops) (ha.mono t2.slots) fun d hd => ?_, r2.sound u v b3 ha fun d hd => ?_⟩
                · rw [hd] at b4; simpa using b4
                · rw [hd] at b2; simpa using b2
              · have hm3 : Models (clsOf s3.ops) u := r2.compl u v ha hf (fun e => (by cases e)) (r1.compl u v (ha.mono t2.slots) (hf.mono t2.slots) (fun e => (by cases e)) hm)
                have hxe := hv.fits t12.slots hf
                intro d hd
                have hd : d ∈ clsOf ((s3.ops ++ [.add (x :: l.getD [])]) ++ [.add (x :: r.getD [])]) := hd
                rw [clsOf_add, clsOf_add] at hd
                simp only [List.mem_append, List.mem_singleton] at hd
                cases hev : (Fm.impl a b).eval v with
                | true =>
                  rcases hd with (hd | rfl) | rfl
                  · exact hm3 d hd
                  · exact sat_cons.2 (.inl (hxe.trans hev))
                  · exact sat_cons.2 (.inl (hxe.trans hev))
                | false =>
                  obtain ⟨e1, e2⟩ := (hf' v).1 hev
                  rcases hd with (hd | rfl) | rfl
                  · exact hm3 d hd
                  · exact sat_cons.2 (.inr (r1.dcompl u v (ha.mono t2.slots) (hf.mono t2.slots) e1 _ r1.some))
                  · exact sat_cons.2 (.inr (r2.dcompl u v ha hf e2 _ r2.some))
  | he a b iha ihb =>
    intro P Γ pol top s D s' hw hP hc he
    rw [pg] at he
    obtain ⟨N, hN⟩ : ∃ N, N + 1 = sizeOf (Fm.equiv a b) := ⟨sizeOf (Fm.equiv a b) - 1, by simp; omega⟩
    have hsa : sizeOf a ≤ N := by have : sizeOf (Fm.equiv a b) = 1 + sizeOf a + sizeOf b := by simp
                                  omega
    have hsb : sizeOf b ≤ N := by have : sizeOf (Fm.equiv a b) = 1 + sizeOf a + sizeOf b := by simp
                                  omega
    have ev : ∀ v : α → Bool, (Fm.equiv a b).eval v = (a.eval v == b.eval v) := fun v => Fm.eval_equiv _ _ _
    cases top with
    | true =>
      rw [if_pos rfl] at he
      cases h1 : equivOps (fun p s => pg a p false s) (fun p s => pg b p false s) s with
      | none => rw [h1] at he; cases he
      | some y =>
        obtain ⟨lp, ln, rp, rn, s1⟩ := y
        rw [h1] at he
        dsimp only at he
        obtain ⟨a1, a2, a3, a4, a5⟩ := equivOps_spec (N := N) (fun g hg => by have := hP g hg; omega) iha ihb hsa hsb hw hc h1
        have rg : ∀ c ∈ [lp, ln, rp, rn], ∀ d ∈ [lp, ln, rp, rn], ∀ l ∈ c ++ d, l / 2 < s1.slots.length := fun c hc d hd l hl =>
          (List.mem_append.1 hl).elim (a3 c hc l) (a3 d hd l)
        cases pol with
        | true =>
          rw [if_pos rfl] at he
          cases he
          have t3 := (a1.add (rg ln (by simp) rp (by simp)))
          have t4 := t3.add (rg lp (by simp) rn (by simp))
          refine ⟨t4.weaken (by omega), ((a2.weaken fun _ _ => trivial).add fun u v ha hf hk => ?_).add fun u v ha hf hk => ?_, fun c e => (by cases e), fun e => (by cases e), fun u v hu ha _ => ?_,
            fun u v ha hf hv c e => (by cases e)⟩
          · have := hk rfl
            rw [ev] at this
            obtain ⟨b1, b2, b3, b4⟩ := a5 u v ha hf
            rw [sat_append]
            cases e1 : a.eval v
            · exact .inl (b2 e1)
            · rw [e1] at this; exact .inr (b3 (by simpa using this.symm))
          · have := hk rfl
            rw [ev] at this
            obtain ⟨b1, b2, b3, b4⟩ := a5 u v ha hf
            rw [sat_append]
            cases e1 : a.eval v
            · rw [e1] at this; exact .inr (b4 (by simpa using this.symm))
            · exact .inl (b1 e1)
          · obtain ⟨b1, b2⟩ := models_add hu
            obtain ⟨b3, b4⟩ := models_add b1
            obtain ⟨c1, c2, c3, c4⟩ := a4 u v b3 ha
            rw [ev]
            rcases sat_append.1 b4 with h | h <;> rcases sat_append.1 b2 with h' | h'
            · have := c2 h; rw [c1 h'] at this; cases this
            · rw [c2 h, c4 h']; rfl
            · rw [c3 h, c1 h']; rfl
            · have := c3 h; rw [c4 h'] at this; cases this
        | false =>
          rw [if_neg (by simp)] at he
          cases he
          have t3 := (a1.add (rg lp (by simp) rp (by simp)))
          have t4 := t3.add (rg ln (by simp) rn (by simp))
          refine ⟨t4.weaken (by omega), ((a2.weaken fun _ _ => trivial).add fun u v ha hf hk => ?_).add fun u v ha hf hk => ?_, fun c e => (by cases e), fun e => (by cases e), fun u v hu ha _ => ?_,
            fun u v ha hf hv c e => (by cases e)⟩
          · have := hk rfl
            rw [ev] at this
            obtain ⟨b1, b2, b3, b4⟩ := a5 u v ha hf
            rw [sat_append]
            cases e1 : a.eval v
            · rw [e1] at this; exact .inr (b3 (by cases hb : b.eval v <;> simp [hb] at this ⊢))
            · exact .inl (b1 e1)
          · have := hk rfl
            rw [ev] at this
            obtain ⟨b1, b2, b3, b4⟩ := a5 u v ha hf
            rw [sat_append]
            cases e1 : a.eval v
            · exact .inl (b2 e1)
            · rw [e1] at this; exact .inr (b4 (by cases hb : b.eval v <;> simp [hb] at this ⊢))
          · obtain ⟨b1, b2⟩ := models_add hu
            obtain ⟨b3, b4⟩ := models_add b1
            obtain ⟨c1, c2, c3, c4⟩ := a4 u v b3 ha
            rw [ev]
            rcases sat_append.1 b4 with h | h <;> rcases sat_append.1 b2 with h' | h'
            · have := c1 h; rw [c2 h'] at this; cases this
            · rw [c1 h, c4 h']; rfl
            · rw [c3 h, c2 h']; rfl
            · have := c3 h; rw [c4 h'] at this; cases this
    | false =>
      rw [if_neg (by simp)] at he
      generalize hx : getPGVar (Fm.equiv a b) pol s = p at he
      obtain ⟨was, x, s1⟩ := p
      have hv := getPGVar_spec hw hc (fun h => Nat.lt_irrefl _ (hP _ h)) hx
      dsimp only at he
      cases was with
      | true => rw [if_pos rfl] at he; cases he; exact res_was hv
      | false =>
        rw [if_neg (by simp)] at he
        cases h1 : equivOps (fun p s => pg a p false s) (fun p s => pg b p false s) s1 with
        | none => rw [h1] at he; cases he
        | some y =>
          obtain ⟨lp, ln, rp, rn, s2⟩ := y
          rw [h1] at he
          dsimp only at he
          obtain ⟨a1, a2, a3, a4, a5⟩ := equivOps_spec (N := N) (pend hP (by omega)) iha ihb hsa hsb hv.wf hv.cache h1
          have hxr := hv.rng a1.slots
          have rg : ∀ y, y / 2 = x / 2 → ∀ c ∈ [lp, ln, rp, rn], ∀ d ∈ [lp, ln, rp, rn], ∀ l ∈ y :: (c ++ d), l / 2 < s2.slots.length := fun y hy c hc d hd l hl => by
            rcases List.mem_cons.1 hl with rfl | hl
            · rw [hy]; exact hxr
            · exact (List.mem_append.1 hl).elim (a3 c hc l) (a3 d hd l)
          cases pol with
          | true =>
            rw [if_pos rfl] at he
            cases he
            have t4 := (a1.add (rg (Sat.neg x) (Sat.neg_var x) ln (by simp) rp (by simp))).add (rg (Sat.neg x) (Sat.neg_var x) lp (by simp) rn (by simp))
            refine res_def (pol := true) hv (M := N) (by omega) t4 (fun u v hu ha hxt => ?_) fun u v ha hf hm => ?_
            · obtain ⟨b1, b2⟩ := models_add hu
              obtain ⟨b3, b4⟩ := models_add b1
              obtain ⟨c1, c2, c3, c4⟩ := a4 u v b3 ha
              rw [sat_cons, lv_neg, hxt] at b2 b4
              simp only [Bool.not_true, Bool.false_eq_true, false_or] at b2 b4
              rw [ev]
              rcases sat_append.1 b4 with h | h <;> rcases sat_append.1 b2 with h' | h'
              · have := c2 h; rw [c1 h'] at this; cases this
              · rw [c2 h, c4 h']; rfl
              · rw [c3 h, c1 h']; rfl
              · have := c3 h; rw [c4 h'] at this; cases this
            · have hm2 : Models (clsOf s2.ops) u := a2 u v ha hf trivial hm
              have hxe := hv.fits a1.slots hf
              obtain ⟨b1, b2, b3, b4⟩ := a5 u v ha hf
              intro d hd
              have hd : d ∈ clsOf ((s2.ops ++ [.add (Sat.neg x :: (ln ++ rp))]) ++ [.add (Sat.neg x :: (lp ++ rn))]) := hd
              rw [clsOf_add, clsOf_add] at hd
              simp only [List.mem_append, List.mem_singleton] at hd
              rw [ev] at hxe
              rcases hd with (hd | rfl) | rfl
              · exact hm2 d hd
              · rw [sat_cons, lv_neg, hxe, sat_append]
                cases e1 : a.eval v <;> cases e2 : b.eval v
                · exact .inr (.inl (b2 e1))
                · exact .inl rfl
                · exact .inl rfl
                · exact .inr (.inr (b3 e2))
              · rw [sat_cons, lv_neg, hxe, sat_append]
                cases e1 : a.eval v <;> cases e2 : b.eval v
                · exact .inr (.inr (b4 e2))
                · exact .inl rfl
                · exact .inl rfl
                · exact .inr (.inl (b1 e1))
          | false =>
            rw [if_neg (by simp)] at he
            cases he
            have t4 := (a1.add (rg x rfl lp (by simp) rp (by simp))).add (rg x rfl ln (by simp) rn (by simp))
            refine res_def (pol := false) hv (M := N) (by omega) t4 (fun u v hu ha hxf => ?_) fun u v ha hf hm => ?_
            · obtain ⟨b1, b2⟩ := models_add hu
              obtain ⟨b3, b4⟩ := models_add b1
              obtain ⟨c1, c2, c3, c4⟩ := a4 u v b3 ha
              rw [sat_cons, hxf] at b2 b4
              simp only [Bool.false_eq_true, false_or] at b2 b4
              rw [ev]
              rcases sat_append.1 b4 with h | h <;> rcases sat_append.1 b2 with h' | h'
              · have := c1 h; rw [c2 h'] at this; cases this
              · rw [c1 h, c4 h']; rfl
              · rw [c3 h, c2 h']; rfl
              · have := c3 h; rw [c4 h'] at this; cases this
            · have hm2 : Models (clsOf s2.ops) u := a2 u v ha hf trivial hm
              have hxe := hv.fits a1.slots hf
              obtain ⟨b1, b2, b3, b4⟩ := a5 u v ha hf
              intro d hd
              have hd : d ∈ clsOf ((s2.ops ++ [.add (x :: (lp ++ rp))]) ++ [.add (x :: (ln ++ rn))]) := hd
              rw [clsOf_add, clsOf_add] at hd
              simp only [List.mem_append, List.mem_singleton] at hd
              rw [ev] at hxe
              rcases hd with (hd | rfl) | rfl
              · exact hm2 d hd
              · rw [sat_cons, hxe, sat_append]
                cases e1 : a.eval v <;> cases e2 : b.eval v
                · exact .inl rfl
                · exact .inr (.inr (b3 e2))
                · exact .inr (.inl (b1 e1))
                · exact .inl rfl
              · rw [sat_cons, hxe, sat_append]
                cases e1 : a.eval v <;> cases e2 : b.eval v
                · exact .inl rfl
                · exact .inr (.inl (b2 e1))
                · exact .inr (.inr (b4 e2))
                · exact .inl rfl

end Verif.Solver
