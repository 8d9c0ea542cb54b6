import Verif.Enum.Model
import Verif.Spec.Count
import Mathlib.Data.List.Nodup
import Mathlib.Algebra.BigOperators.Group.List.Basic
import Mathlib.Algebra.Group.Nat.Defs
/-!
# Model enumeration and counting (C27)
-/
namespace Verif.Enum
open Verif
variable {α : Type} [DecidableEq α]

/-! ### Specification -/

/-- `v` satisfies all formulas -/
def Sat (v : α → Bool) (fs : List (Fm α)) : Prop := ∀ f ∈ fs, f.eval v = true

/-- the answers of the solver that are not cancelled are correct (C18) -/
def Cfg.Ok (g : Cfg α) : Prop :=
  (∀ n fs v, g.call n fs = some (some v) → Sat v fs) ∧ ∀ n fs, g.call n fs = some none → ¬∃ v, Sat v fs

/-- nothing is cancelled -/
def Cfg.Total (g : Cfg α) : Prop := (∀ n fs, g.call n fs ≠ none) ∧ ∀ n, g.go n = true

/-- the strategy chooses among the given variables -/
def Cfg.Within (g : Cfg α) : Prop :=
  (∀ vs s d, ∀ x ∈ g.split vs s d, x ∈ vs) ∧ ∀ vs d, ∀ x ∈ g.reduce vs d, x ∈ vs

/-- two models decide some variable of `V` differently -/
def Conflict (V : List α) (M M' : List (Lit α)) : Prop := ∃ x ∈ V, ∃ b, (⟨x, b⟩ : Lit α) ∈ M ∧ (⟨x, !b⟩ : Lit α) ∈ M'

/-! ### Lemmas -/

theorem sat_append {v : α → Bool} {fs gs : List (Fm α)} : Sat v (fs ++ gs) ↔ Sat v fs ∧ Sat v gs := by
  simp [Sat, or_imp, forall_and]

theorem sat_lits {v : α → Bool} {ls : List (Lit α)} : Sat v (ls.map .lit) ↔ ∀ l ∈ ls, l.eval v = true := by
  simp [Sat]

theorem lit_eval {v : α → Bool} {x : α} {b : Bool} : (⟨x, b⟩ : Lit α).eval v = true ↔ v x = b := by
  cases b <;> simp [Lit.eval]

theorem sat_add {v : α → Bool} {s : St α} {ls : List (Lit α)} :
    Sat v (s.add ls).fs ↔ Sat v s.fs ∧ ∀ l ∈ ls, v l.var = l.pos := by
  show Sat v (s.fs ++ ls.map .lit) ↔ _
  rw [sat_append, sat_lits]
  exact and_congr Iff.rfl (forall₂_congr fun l _ => lit_eval (x := l.var) (b := l.pos))

theorem block_eval {rel : List α} {v u : α → Bool} : (block rel v).eval u = true ↔ ∃ x ∈ rel, u x ≠ v x := by
  simp only [block, Fm.eval_or, List.any_map, List.any_eq_true, Function.comp]
  refine exists_congr fun x => and_congr Iff.rfl ?_
  rw [Fm.eval, lit_eval]
  cases u x <;> cases v x <;> simp

/-- models found by one run of `iterate` -/
structure Found (rel : List α) (fs : List (Fm α)) (vs : List (α → Bool)) : Prop where
  sat : ∀ v ∈ vs, Sat v fs
  diff : vs.Pairwise fun v w => ∃ x ∈ rel, v x ≠ w x

def All (rel : List α) (fs : List (Fm α)) (vs : List (α → Bool)) : Prop := ∀ u, Sat u fs → ∃ v ∈ vs, ∀ x ∈ rel, u x = v x

theorem iterLoop_spec {g : Cfg α} (hok : g.Ok) {kn rel all : List α} (hk : kn = [] → rel = []) {max : Nat} (F : Nat) :
    ∀ {found fs} {c : Coll α} {n fin ok c' n'}, iterLoop g kn rel all max F found fs c n = some (fin, ok, c', n') →
      ∃ vs, c' = { c with unc := c.unc ++ vs.map fun v => c.neg ++ litsOf all v } ∧ Found rel fs vs ∧
        (g.Total → ok = true) ∧ (g.Total → fin = true → All rel fs vs) := by
  induction F with
  | zero => intro _ _ _ _ _ _ _ _ h; cases h
  | succ F ih =>
    intro found fs c n fin ok c' n' h
    rw [iterLoop] at h
    have hnil : Found rel fs [] := ⟨by simp, .nil⟩
    cases hc : g.call n fs with
    | none =>
      simp only [hc, Option.some.injEq, Prod.mk.injEq] at h
      obtain ⟨rfl, rfl, rfl, rfl⟩ := h
      exact ⟨[], by simp, hnil, fun _ => rfl, fun h => absurd hc (h.1 n fs)⟩
    | some o =>
      cases o with
      | none =>
        simp only [hc, Option.some.injEq, Prod.mk.injEq] at h
        obtain ⟨rfl, rfl, rfl, rfl⟩ := h
        exact ⟨[], by simp, hnil, fun _ => rfl, fun _ _ u hu => absurd ⟨u, hu⟩ (hok.2 n fs hc)⟩
      | some v =>
        simp only [hc] at h
        have hv := hok.1 n fs v hc
        have hone : Found rel fs [v] := ⟨by simpa using hv, by simp⟩
        have hadd : c.addModel (litsOf all v) = { c with unc := c.unc ++ [v].map fun v => c.neg ++ litsOf all v } := rfl
        split at h
        · simp only [Option.some.injEq, Prod.mk.injEq] at h
          obtain ⟨rfl, rfl, rfl, rfl⟩ := h
          exact ⟨[], by simp, hnil, fun _ => rfl, fun _ e => by cases e⟩
        · split at h
          · split at h
            · rename_i hkn
              simp only [Option.some.injEq, Prod.mk.injEq] at h
              obtain ⟨rfl, rfl, rfl, rfl⟩ := h
              exact ⟨[v], hadd, hone, fun _ => rfl, fun _ _ u _ => ⟨v, by simp, by rw [hk hkn]; simp⟩⟩
            · obtain ⟨vs, h1, h2, h3, h4⟩ := ih h
              refine ⟨v :: vs, ?_, ⟨?_, ?_⟩, h3, ?_⟩
              · rw [h1, hadd]; simp
              · intro w hw
                rcases List.mem_cons.1 hw with rfl | hw
                · exact hv
                · exact (sat_append.1 (h2.sat w hw)).1
              · refine List.pairwise_cons.2 ⟨fun w hw => ?_, h2.diff⟩
                have := (sat_append.1 (h2.sat w hw)).2 _ (List.mem_singleton.2 rfl)
                obtain ⟨x, hx, hne⟩ := block_eval.1 this
                exact ⟨x, hx, fun e => hne e.symm⟩
              · intro ht hf u hu
                by_cases hb : (block rel v).eval u = true
                · obtain ⟨w, hw, ha⟩ := h4 ht hf u (sat_append.2 ⟨hu, fun f hf => by rw [List.mem_singleton] at hf; rw [hf]; exact hb⟩)
                  exact ⟨w, by simp [hw], ha⟩
                · rw [block_eval] at hb
                  push Not at hb
                  exact ⟨v, by simp, hb⟩
          · simp only [Option.some.injEq, Prod.mk.injEq] at h
            obtain ⟨rfl, rfl, rfl, rfl⟩ := h
            exact ⟨[v], hadd, hone, fun ht => absurd (ht.2 (n + 1)) (by assumption), fun _ e => by cases e⟩

theorem iterate_spec {g : Cfg α} (hok : g.Ok) {F : Nat} {s : St α} {vars add : List α} {max : Nat} {c : Coll α} {n fin ok c' n'}
    (h : iterate g F s vars add max c n = some (fin, ok, c', n')) :
    ∃ vs, c' = { c with unc := c.unc ++ vs.map fun v => c.neg ++ litsOf (vars.filter (· ∈ s.kn) ++ (add.filter (· ∉ vars)).filter (· ∈ s.kn)) v } ∧
      Found (vars.filter (· ∈ s.kn)) s.fs vs ∧ (g.Total → ok = true) ∧
      (g.Total → fin = true → All (vars.filter (· ∈ s.kn)) s.fs vs) :=
  iterLoop_spec hok (by intro e; rw [e]; simp) F h

/-! ### The invariant of the solver -/

/-- `V`: variables, `A`: additional variables, `D`: variables of `V` unknown to the solver, `N`: additional variables unknown to the solver -/
structure Inv (V A D N : List α) (s : St α) : Prop where
  dV : ∀ x ∈ D, x ∈ V
  nV : ∀ x ∈ N, x ∉ V
  nA : ∀ x ∈ N, x ∈ A
  known : ∀ x ∈ V, x ∈ s.kn ↔ x ∉ D
  knownA : ∀ x ∈ A, x ∉ N → x ∈ s.kn
  neg : ∀ x ∈ N, x ∈ s.kn → ∀ u, Sat u s.fs → u x = false
  closed : ∀ u u', Sat u s.fs → (∀ x, x ∉ D → x ∉ N → u' x = u x) → (∀ x ∈ N, u' x = false) → Sat u' s.fs

/-- literals which are added for a split -/
def SmOk (V D N : List α) (sm : List (Lit α)) : Prop :=
  ∀ l ∈ sm, (l.var ∈ V ∧ l.var ∉ D) ∨ (l.var ∈ N ∧ l.pos = false)

theorem Inv.add {V A D N : List α} {s : St α} (h : Inv V A D N s) {sm : List (Lit α)} (hsm : SmOk V D N sm) :
    Inv V A D N (s.add sm) := by
  refine ⟨h.dV, h.nV, h.nA, ?_, fun x h1 h2 => List.mem_append_left _ (h.knownA x h1 h2), ?_, ?_⟩
  · intro x hx
    constructor
    · intro hm
      rcases List.mem_append.1 hm with hm | hm
      · exact (h.known x hx).1 hm
      · obtain ⟨l, hl, rfl⟩ := List.mem_map.1 hm
        rcases hsm l hl with h1 | h1
        · exact h1.2
        · exact absurd hx (h.nV _ h1.1)
    · exact fun hD => List.mem_append_left _ ((h.known x hx).2 hD)
  · intro x hx hm u hu
    rw [sat_add] at hu
    rcases List.mem_append.1 hm with hm | hm
    · exact h.neg x hx hm u hu.1
    · obtain ⟨l, hl, rfl⟩ := List.mem_map.1 hm
      rcases hsm l hl with h1 | h1
      · exact absurd h1.1 (h.nV _ hx)
      · rw [hu.2 l hl, h1.2]
  · intro u u' hu h1 h2
    rw [sat_add] at hu ⊢
    refine ⟨h.closed u u' hu.1 h1 h2, fun l hl => ?_⟩
    rcases hsm l hl with h3 | h3
    · rw [h1 _ h3.2 fun hn => h.nV _ hn h3.1, hu.2 l hl]
    · rw [h2 _ h3.1, h3.2]

/-! ### Cartesian product -/

theorem cartesian_snoc (xs : List α) (x : α) :
    cartesian (xs ++ [x]) = (cartesian xs).flatMap fun ls => [ls ++ [⟨x, true⟩], ls ++ [⟨x, false⟩]] := by
  simp [cartesian]

theorem cartesian_length (xs : List α) : (cartesian xs).length = 2 ^ xs.length := by
  induction xs using List.reverseRecOn with
  | nil => rfl
  | append_singleton xs x ih =>
    rw [cartesian_snoc, List.length_flatMap]
    simp [ih, pow_succ]

theorem cartesian_var {xs : List α} {b : List (Lit α)} (hb : b ∈ cartesian xs) : b.map (·.var) = xs := by
  induction xs using List.reverseRecOn generalizing b with
  | nil => simp [cartesian] at hb; subst hb; rfl
  | append_singleton xs x ih =>
    rw [cartesian_snoc, List.mem_flatMap] at hb
    obtain ⟨c, hc, hb⟩ := hb
    simp at hb
    rcases hb with rfl | rfl <;> simp [ih hc]

theorem cartesian_pairwise (xs : List α) : (cartesian xs).Pairwise (Conflict xs) := by
  induction xs using List.reverseRecOn with
  | nil => simp [cartesian]
  | append_singleton xs x ih =>
    rw [cartesian_snoc, List.pairwise_flatMap]
    refine ⟨fun b _ => ?_, ?_⟩
    · simp only [List.pairwise_cons, List.mem_singleton, List.not_mem_nil, forall_eq, false_implies, implies_true,
        List.Pairwise.nil, and_true]
      exact ⟨x, by simp, true, by simp, by simp⟩
    · refine ih.imp ?_
      rintro b c ⟨y, hy, e, h1, h2⟩ b' hb' c' hc'
      refine ⟨y, by simp [hy], e, ?_, ?_⟩
      · simp at hb'; rcases hb' with rfl | rfl <;> simp [h1]
      · simp at hc'; rcases hc' with rfl | rfl <;> simp [h2]

theorem cartesian_mem (xs : List α) (u : α → Bool) : litsOf xs u ∈ cartesian xs := by
  induction xs using List.reverseRecOn with
  | nil => simp [cartesian, litsOf]
  | append_singleton xs x ih =>
    rw [cartesian_snoc, List.mem_flatMap]
    refine ⟨_, ih, ?_⟩
    simp only [litsOf, List.map_append, List.map_cons, List.map_nil]
    cases u x <;> simp

/-! ### Lists of models -/

/-- `M` is the restriction of `u` to the variables and the additional variables -/
def Restr (V A : List α) (u : α → Bool) (M : List (Lit α)) : Prop := ∀ l, l ∈ M ↔ (l.var ∈ V ∨ l.var ∈ A) ∧ l.eval u = true

theorem Restr.mem {V A : List α} {u : α → Bool} {M : List (Lit α)} (h : Restr V A u M) {x : α} (hx : x ∈ V) : (⟨x, u x⟩ : Lit α) ∈ M :=
  (h _).2 ⟨.inl hx, lit_eval.2 rfl⟩

theorem Restr.val {V A : List α} {u : α → Bool} {M : List (Lit α)} (h : Restr V A u M) {x : α} {b : Bool} (hx : (⟨x, b⟩ : Lit α) ∈ M) : u x = b :=
  lit_eval.1 ((h _).1 hx).2

/-- a correct, duplicate free list of models -/
structure Sound (V A : List α) (fs : List (Fm α)) (L : List (List (Lit α))) : Prop where
  restr : ∀ M ∈ L, ∃ u, Sat u fs ∧ Restr V A u M
  diff : L.Pairwise (Conflict V)

def Complete (V : List α) (fs : List (Fm α)) (L : List (List (Lit α))) : Prop :=
  ∀ u, Sat u fs → ∃ M ∈ L, ∀ x ∈ V, (⟨x, u x⟩ : Lit α) ∈ M

/-- the collector between two recursive calls -/
structure CollOk (D N : List α) (c : Coll α) : Prop where
  base : c.base = cartesian D
  neg : c.neg = N.map fun x => ⟨x, false⟩
  factor : c.factor = 2 ^ D.length
  unc : c.unc = []

/-- `c` after committing the models `L` -/
def Coll.more (c : Coll α) (L : List (List (Lit α))) : Coll α := { c with com := c.com ++ L, cnt := c.cnt + L.length }

theorem CollOk.more {D N : List α} {c : Coll α} (h : CollOk D N c) (L : List (List (Lit α))) : CollOk D N (c.more L) :=
  ⟨h.base, h.neg, h.factor, h.unc⟩
theorem Coll.more_nil (c : Coll α) : c.more [] = c := by simp [Coll.more]
theorem Coll.more_more (c : Coll α) (L M : List (List (Lit α))) : (c.more L).more M = c.more (L ++ M) := by
  simp [Coll.more, Nat.add_assoc]
theorem CollOk.commit {D N : List α} {c : Coll α} (h : CollOk D N c) : c.commit = c := by
  obtain ⟨b, ng, fa, un, co, cn⟩ := c
  have := h.unc
  simp only at this
  subst this
  simp [Coll.commit]

/-- models of an assignment of the solver -/
def expand (D N all : List α) (vs : List (α → Bool)) : List (List (Lit α)) :=
  (cartesian D).flatMap fun b => vs.map fun v => b ++ ((N.map fun x => (⟨x, false⟩ : Lit α)) ++ litsOf all v)

theorem commit_expand {D N : List α} {c : Coll α} (h : CollOk D N c) (all : List α) (vs : List (α → Bool)) :
    ({ c with unc := c.unc ++ vs.map fun v => c.neg ++ litsOf all v } : Coll α).commit = c.more (expand D N all vs) := by
  obtain ⟨b, ng, fa, un, co, cn⟩ := c
  obtain ⟨h1, h2, h3, h4⟩ := h
  simp only at h1 h2 h3 h4
  subst h1; subst h2; subst h3; subst h4
  simp only [Coll.commit, Coll.more, expand, List.nil_append, List.length_map, List.length_flatMap, List.map_map, Function.comp_def]
  have : ((cartesian D).map fun _ => vs.length).sum = vs.length * 2 ^ D.length := by
    rw [List.map_const', List.sum_replicate, cartesian_length]; show 2 ^ D.length * vs.length = _; rw [Nat.mul_comm]
  rw [this]

theorem mem_of_nodup_var {b : List (Lit α)} (h : (b.map (·.var)).Nodup) {x : α} (h1 : (⟨x, true⟩ : Lit α) ∈ b) :
    (⟨x, false⟩ : Lit α) ∉ b := fun h2 => by
  have := List.inj_on_of_nodup_map h h1 h2 rfl
  cases this

theorem expand_sound {V A D N : List α} {s : St α} (h : Inv V A D N s) (hD : D.Nodup) {vs : List (α → Bool)}
    (hf : Found (V.filter (· ∈ s.kn)) s.fs vs) :
    Sound V A s.fs (expand D N (V.filter (· ∈ s.kn) ++ (A.filter (· ∉ V)).filter (· ∈ s.kn)) vs) := by
  constructor
  · intro M hM
    obtain ⟨b, hb, hM⟩ := List.mem_flatMap.1 hM
    obtain ⟨v, hv, rfl⟩ := List.mem_map.1 hM
    have hbv := cartesian_var hb
    have hnd : (b.map (·.var)).Nodup := by rw [hbv]; exact hD
    have hND : ∀ x ∈ N, x ∉ D := fun x hx hd => h.nV x hx (h.dV x hd)
    have hsat := hf.sat v hv
    let u : α → Bool := fun x => if x ∈ D then decide ((⟨x, true⟩ : Lit α) ∈ b) else if x ∈ N then false else v x
    have hu1 : ∀ x, x ∉ D → x ∉ N → u x = v x := fun x h1 h2 => by simp [u, h1, h2]
    have hu2 : ∀ x ∈ N, u x = false := fun x h1 => by simp [u, h1, hND x h1]
    have hu3 : ∀ l : Lit α, l.var ∈ D → (l ∈ b ↔ u l.var = l.pos) := by
      rintro ⟨x, p⟩ hx
      simp only at hx
      have : u x = decide ((⟨x, true⟩ : Lit α) ∈ b) := by simp [u, hx]
      simp only [this]
      cases p with
      | true => simp
      | false =>
        simp only [decide_eq_false_iff_not]
        refine ⟨fun h1 h2 => mem_of_nodup_var hnd h2 h1, fun h1 => ?_⟩
        rw [← hbv] at hx
        obtain ⟨⟨y, p⟩, hl, rfl⟩ := List.mem_map.1 hx
        cases p with
        | true => exact absurd hl h1
        | false => exact hl
    refine ⟨u, h.closed v u hsat hu1 hu2, ?_⟩
    rintro ⟨x, p⟩
    rw [lit_eval]
    simp only [List.mem_append, List.mem_map, litsOf, Lit.mk.injEq, List.mem_filter, decide_eq_true_eq]
    constructor
    · rintro (hl | ⟨y, hy, rfl, rfl⟩ | ⟨y, hy, rfl, rfl⟩)
      · have hx : x ∈ D := by rw [← hbv]; exact List.mem_map.2 ⟨_, hl, rfl⟩
        exact ⟨.inl (h.dV x hx), (hu3 ⟨x, p⟩ hx).1 hl⟩
      · exact ⟨.inr (h.nA _ hy), hu2 _ hy⟩
      · rcases hy with ⟨h1, h2⟩ | ⟨⟨h1, h3⟩, h2⟩
        · exact ⟨.inl h1, hu1 _ ((h.known _ h1).1 h2) fun hn => h.nV _ hn h1⟩
        · refine ⟨.inr h1, ?_⟩
          by_cases hn : y ∈ N
          · rw [hu2 _ hn, h.neg _ hn h2 v hsat]
          · exact hu1 _ (fun hd => h3 (h.dV _ hd)) hn
    · rintro ⟨hx, rfl⟩
      by_cases hd : x ∈ D
      · exact .inl ((hu3 ⟨x, u x⟩ hd).2 rfl)
      · by_cases hn : x ∈ N
        · exact .inr (.inl ⟨x, hn, rfl, (hu2 x hn).symm⟩)
        · refine .inr (.inr ⟨x, ?_, rfl, (hu1 x hd hn).symm⟩)
          by_cases hv : x ∈ V
          · exact .inl ⟨hv, (h.known x hv).2 hd⟩
          · have hA := hx.resolve_left hv
            exact .inr ⟨⟨hA, hv⟩, h.knownA x hA hn⟩
  · unfold expand
    rw [List.pairwise_flatMap]
    constructor
    · intro b _
      rw [List.pairwise_map]
      refine hf.diff.imp ?_
      rintro v w ⟨x, hx, hne⟩
      have hx' := List.mem_filter.1 hx
      refine ⟨x, hx'.1, v x, ?_, ?_⟩
      · exact List.mem_append_right _ (List.mem_append_right _ (List.mem_map.2 ⟨x, List.mem_append_left _ hx, rfl⟩))
      · refine List.mem_append_right _ (List.mem_append_right _ (List.mem_map.2 ⟨x, List.mem_append_left _ hx, ?_⟩))
        revert hne
        cases v x <;> cases w x <;> simp
    · refine (cartesian_pairwise D).imp ?_
      rintro b c ⟨x, hx, e, h1, h2⟩ M hM M' hM'
      obtain ⟨v, -, rfl⟩ := List.mem_map.1 hM
      obtain ⟨w, -, rfl⟩ := List.mem_map.1 hM'
      exact ⟨x, h.dV x hx, e, List.mem_append_left _ h1, List.mem_append_left _ h2⟩

theorem expand_complete {V A D N : List α} {s : St α} (h : Inv V A D N s) {vs : List (α → Bool)}
    (hf : All (V.filter (· ∈ s.kn)) s.fs vs) :
    Complete V s.fs (expand D N (V.filter (· ∈ s.kn) ++ (A.filter (· ∉ V)).filter (· ∈ s.kn)) vs) := by
  intro u hu
  obtain ⟨v, hv, ha⟩ := hf u hu
  refine ⟨_, List.mem_flatMap.2 ⟨_, cartesian_mem D u, List.mem_map.2 ⟨v, hv, rfl⟩⟩, fun x hx => ?_⟩
  by_cases hk : x ∈ s.kn
  · refine List.mem_append_right _ (List.mem_append_right _ (List.mem_map.2 ⟨x, ?_, ?_⟩))
    · simp [hx, hk]
    · rw [ha x (by simp [hx, hk])]
  · refine List.mem_append_left _ (List.mem_map.2 ⟨x, ?_, rfl⟩)
    by_contra hD
    exact hk ((h.known x hx).2 hD)

/-! ### The recursion -/

theorem CollOk.rollback {D N : List α} {c : Coll α} (h : CollOk D N c) (X : List (List (Lit α))) :
    ({ c with unc := X } : Coll α).rollback = c := by
  obtain ⟨b, ng, fa, un, co, cn⟩ := c
  have := h.unc
  simp only at this
  subst this
  rfl

theorem splitLoop_spec {g : Cfg α} (hok : g.Ok) (hw : g.Within) {D N V : List α} {F : Nat} {s : St α} {d : Nat} (k : Nat) :
    ∀ {sv} {c : Coll α} {n o c' n'}, CollOk D N c → (∀ x ∈ sv, x ∈ V) → splitLoop g F s d k sv c n = some (o, c', n') →
      (o = none ∧ c' = c ∧ ¬g.Total) ∨
      ∃ nsv vs, o = some nsv ∧ (∀ x ∈ nsv, x ∈ V) ∧
        c' = { c with unc := vs.map fun v => (N.map fun x => (⟨x, false⟩ : Lit α)) ++ litsOf (nsv.filter (· ∈ s.kn)) v } ∧
        Found (nsv.filter (· ∈ s.kn)) s.fs vs ∧ (g.Total → All (nsv.filter (· ∈ s.kn)) s.fs vs) := by
  induction k with
  | zero => intro _ _ _ _ _ _ _ _ h; cases h
  | succ k ih =>
    intro sv c n o c' n' hc hsv h
    rw [splitLoop] at h
    cases hi : iterate g F s sv [] (g.maxSplit d) c n with
    | none => simp [hi] at h
    | some r =>
      obtain ⟨fin, ok, c1, n1⟩ := r
      obtain ⟨vs, h1, h2, h3, h4⟩ := iterate_spec hok hi
      simp only [hi] at h
      cases ok with
      | false =>
        simp only [Option.some.injEq, Prod.mk.injEq] at h
        obtain ⟨rfl, rfl, rfl⟩ := h
        exact .inl ⟨rfl, by rw [h1]; exact hc.rollback _, fun ht => by cases h3 ht⟩
      | true =>
        cases fin with
        | true =>
          simp only [Option.some.injEq, Prod.mk.injEq] at h
          obtain ⟨rfl, rfl, rfl⟩ := h
          refine .inr ⟨sv, vs, rfl, hsv, ?_, h2, fun ht => h4 ht rfl⟩
          rw [h1, hc.unc, hc.neg]
          simp
        | false =>
          simp only at h
          rw [h1, hc.rollback] at h
          split at h
          · exact ih hc (fun x hx => hsv x (hw.2 _ _ x hx)) h
          · simp only [Option.some.injEq, Prod.mk.injEq] at h
            obtain ⟨rfl, rfl, rfl⟩ := h
            exact .inl ⟨rfl, rfl, fun ht => absurd (ht.2 _) (by assumption)⟩

/-- what a recursive call does -/
def Post (g : Cfg α) (V A D N : List α) (s : St α) (a : List (Lit α)) (c : Coll α) (ok : Bool) (s' : St α) (c' : Coll α) : Prop :=
  Inv V A D N s' ∧ (∀ u, Sat u s'.fs → Sat u s.fs) ∧ ∃ L, c' = c.more L ∧ Sound V A (s.add a).fs L ∧
    (g.Total → ok = true ∧ s' = s ∧ Complete V (s.add a).fs L)

theorem recLoop_spec {g : Cfg α} {V A D N : List α}
    {rec : List (Lit α) → St α → Coll α → Nat → Option (Bool × St α × Coll α × Nat)}
    (hrec : ∀ a s c n ok s' c' n', Inv V A D N s → SmOk V D N a → CollOk D N c → rec a s c n = some (ok, s', c', n') →
      Post g V A D N s a c ok s' c')
    {sm : List (Lit α)} (hsm : SmOk V D N sm) (as : List (List (Lit α))) :
    ∀ {s c n ok s' c' n'}, Inv V A D N s → CollOk D N c → (∀ a ∈ as, SmOk V D N a) → as.Pairwise (Conflict V) →
      (∀ u, Sat u s.fs → ∀ l ∈ sm, u l.var = l.pos) →
      recLoop g rec sm as s c n = some (ok, s', c', n') →
      Inv V A D N s' ∧ ∃ L, c' = c.more L ∧
        (∀ M ∈ L, ∃ u, Sat u s.fs ∧ Restr V A u M ∧ ∃ a ∈ as, ∀ l ∈ a, u l.var = l.pos) ∧ L.Pairwise (Conflict V) ∧
        (g.Total → ok = true ∧ s' = s ∧
          ∀ u, Sat u s.fs → ∀ a ∈ as, (∀ l ∈ a, u l.var = l.pos) → ∃ M ∈ L, ∀ x ∈ V, (⟨x, u x⟩ : Lit α) ∈ M) := by
  induction as with
  | nil =>
    intro s c n ok s' c' n' hs hc _ _ _ h
    rw [recLoop] at h
    simp only [Option.some.injEq, Prod.mk.injEq] at h
    obtain ⟨rfl, rfl, rfl, rfl⟩ := h
    exact ⟨hs, [], c.more_nil.symm, by simp, .nil, fun _ => ⟨rfl, rfl, by simp⟩⟩
  | cons a as ih =>
    intro s c n ok s' c' n' hs hc ha hp hss h
    rw [recLoop] at h
    cases hr : rec (a ++ sm) s c n with
    | none => simp [hr] at h
    | some r =>
      obtain ⟨ok1, s1, c1, n1⟩ := r
      have hasm : SmOk V D N (a ++ sm) := by
        intro l hl
        rcases List.mem_append.1 hl with hl | hl
        · exact ha a (by simp) l hl
        · exact hsm l hl
      obtain ⟨i1, i2, L1, rfl, i4, i5⟩ := hrec _ _ _ _ _ _ _ _ hs hasm hc hr
      have hL1 : ∀ M ∈ L1, ∃ u, Sat u s.fs ∧ Restr V A u M ∧ ∀ l ∈ a, u l.var = l.pos := by
        intro M hM
        obtain ⟨u, hu, hr⟩ := i4.restr M hM
        rw [sat_add] at hu
        exact ⟨u, hu.1, hr, fun l hl => hu.2 l (by simp [hl])⟩
      rw [List.pairwise_cons] at hp
      simp only [hr] at h
      rw [(hc.more L1).commit] at h
      split at h
      · obtain ⟨j1, L2, rfl, j3, j4, j5⟩ := ih i1 (hc.more L1) (fun b hb => ha b (by simp [hb])) hp.2 (fun u hu => hss u (i2 u hu)) h
        refine ⟨j1, L1 ++ L2, c.more_more _ _, ?_, ?_, ?_⟩
        · intro M hM
          rcases List.mem_append.1 hM with hM | hM
          · obtain ⟨u, h1, h2, h3⟩ := hL1 M hM
            exact ⟨u, h1, h2, a, by simp, h3⟩
          · obtain ⟨u, h1, h2, b, h3, h4⟩ := j3 M hM
            exact ⟨u, i2 u h1, h2, b, by simp [h3], h4⟩
        · rw [List.pairwise_append]
          refine ⟨i4.diff, j4, fun M hM M' hM' => ?_⟩
          obtain ⟨u, h1, h2, h3⟩ := hL1 M hM
          obtain ⟨w, h4, h5, b, h6, h7⟩ := j3 M' hM'
          obtain ⟨x, hx, e, h8, h9⟩ := hp.1 b h6
          refine ⟨x, hx, e, ?_, ?_⟩
          · have := h3 _ h8
            simp only at this
            rw [← this]
            exact h2.mem hx
          · have := h7 _ h9
            simp only at this
            rw [← this]
            exact h5.mem hx
        · intro ht
          obtain ⟨k1, k2, k3⟩ := i5 ht
          obtain ⟨k4, k5, k6⟩ := j5 ht
          refine ⟨k4, k5.trans k2, fun u hu b hb hbu => ?_⟩
          rcases List.mem_cons.1 hb with rfl | hb
          · obtain ⟨M, hM, h1⟩ := k3 u (sat_add.2 ⟨hu, fun l hl => by
              rcases List.mem_append.1 hl with hl | hl
              · exact hbu l hl
              · exact hss u hu l hl⟩)
            exact ⟨M, by simp [hM], h1⟩
          · obtain ⟨M, hM, h1⟩ := k6 u (by rw [k2]; exact hu) b hb hbu
            exact ⟨M, by simp [hM], h1⟩
      · simp only [Option.some.injEq, Prod.mk.injEq] at h
        obtain ⟨rfl, rfl, rfl, rfl⟩ := h
        refine ⟨i1, L1, rfl, fun M hM => ?_, i4.diff, fun ht => absurd (ht.2 _) (by assumption)⟩
        obtain ⟨u, h1, h2, h3⟩ := hL1 M hM
        exact ⟨u, h1, h2, a, by simp, h3⟩

theorem iterRec_spec {g : Cfg α} (hok : g.Ok) (hw : g.Within) {V A D N : List α} (hD : D.Nodup) {F : Nat} (k : Nat) :
    ∀ {sm sv d s c n ok s' c' n'}, Inv V A D N s → SmOk V D N sm → CollOk D N c → (∀ x ∈ sv, x ∈ V) →
      iterRec g F V A k sm sv d s c n = some (ok, s', c', n') → Post g V A D N s sm c ok s' c' := by
  induction k with
  | zero => intro _ _ _ _ _ _ _ _ _ _ _ _ _ _ h; cases h
  | succ k ih =>
    intro sm sv d s c n ok s' c' n' hs hsm hc hsv h
    rw [iterRec] at h
    have hs1 := hs.add hsm
    have hmono : ∀ u, Sat u (s.add sm).fs → Sat u s.fs := fun u hu => (sat_add.1 hu).1
    have nothing : ∀ b : Bool, ¬g.Total → Post g V A D N s sm c b s c := fun b hn =>
      ⟨hs, fun _ h => h, [], c.more_nil.symm, ⟨by simp, .nil⟩, fun ht => absurd ht hn⟩
    cases hi : iterate g F (s.add sm) V A (g.maxIter d) c n with
    | none => simp [hi] at h
    | some r =>
      obtain ⟨fin, ok1, c1, n1⟩ := r
      obtain ⟨vs, h1, h2, h3, h4⟩ := iterate_spec hok hi
      simp only [hi] at h
      cases ok1 with
      | false =>
        simp only [Option.some.injEq, Prod.mk.injEq] at h
        obtain ⟨rfl, rfl, rfl, rfl⟩ := h
        refine ⟨hs1, hmono, _, by rw [h1]; exact commit_expand hc _ _, expand_sound hs1 hD h2, fun ht => by cases h3 ht⟩
      | true =>
        cases fin with
        | true =>
          simp only [Option.some.injEq, Prod.mk.injEq] at h
          obtain ⟨rfl, rfl, rfl, rfl⟩ := h
          exact ⟨hs, fun _ h => h, _, by rw [h1]; exact commit_expand hc _ _, expand_sound hs1 hD h2,
            fun ht => ⟨ht.2 _, rfl, expand_complete hs1 (h4 ht rfl)⟩⟩
        | false =>
          simp only at h
          rw [h1, hc.rollback] at h
          split at h
          · rename_i hgo
            cases hsp : splitLoop g F (s.add sm) d F sv c (n1 + 1) with
            | none => simp [hsp] at h
            | some r =>
              obtain ⟨o, c2, n2⟩ := r
              simp only [hsp] at h
              rcases splitLoop_spec hok hw F hc hsv hsp with ⟨rfl, rfl, hn⟩ | ⟨nsv, ws, rfl, g1, g2, g3, g4⟩
              · simp only [Option.some.injEq, Prod.mk.injEq] at h
                obtain ⟨rfl, rfl, rfl, rfl⟩ := h
                exact nothing _ hn
              · simp only at h
                have hroll : c2.rollback = c := by rw [g2]; exact hc.rollback _
                rw [hroll] at h
                split at h
                · rename_i hgo2
                  obtain ⟨spl, hspl⟩ : ∃ spl, g.split ((V.filter (· ∉ nsv)).filter (· ∉ sm.map (·.var))) (s.add sm) (d + 1) = spl := ⟨_, rfl⟩
                  have hsplV : ∀ x ∈ spl, x ∈ V := fun x hx => by
                    rw [← hspl] at hx
                    exact (List.mem_filter.1 (List.mem_filter.1 (hw.1 _ _ _ x hx)).1).1
                  rw [hspl] at h
                  cases hrl : recLoop g (fun a s c n => iterRec g F V A k a spl (d + 1) s c n) sm c2.unc (s.add sm) c (n2 + 1) with
                  | none => simp [hrl] at h
                  | some r =>
                    obtain ⟨ok3, s3, c3, n3⟩ := r
                    simp only [hrl, Option.some.injEq, Prod.mk.injEq] at h
                    obtain ⟨rfl, rfl, rfl, rfl⟩ := h
                    have hunc : c2.unc = ws.map fun v => (N.map fun x => (⟨x, false⟩ : Lit α)) ++ litsOf (nsv.filter (· ∈ (s.add sm).kn)) v := by rw [g2]
                    rw [hunc] at hrl
                    obtain ⟨-, L, rfl, q3, q4, q5⟩ := recLoop_spec
                      (fun a s c n ok s' c' n' i1 i2 i3 i4 => ih i1 i2 i3 hsplV i4) hsm _ hs1 hc (by
                        intro a ha l hl
                        obtain ⟨v, -, rfl⟩ := List.mem_map.1 ha
                        rcases List.mem_append.1 hl with hl | hl
                        · obtain ⟨x, hx, rfl⟩ := List.mem_map.1 hl
                          exact .inr ⟨hx, rfl⟩
                        · obtain ⟨x, hx, rfl⟩ := List.mem_map.1 hl
                          have hx := List.mem_filter.1 hx
                          have hxV := g1 x hx.1
                          exact .inl ⟨hxV, (hs1.known x hxV).1 (by simpa using hx.2)⟩) (by
                        rw [List.pairwise_map]
                        refine g3.diff.imp ?_
                        rintro v w ⟨x, hx, hne⟩
                        refine ⟨x, g1 x (List.mem_filter.1 hx).1, v x, ?_, ?_⟩
                        · exact List.mem_append_right _ (List.mem_map.2 ⟨x, hx, rfl⟩)
                        · refine List.mem_append_right _ (List.mem_map.2 ⟨x, hx, ?_⟩)
                          revert hne
                          cases v x <;> cases w x <;> simp) (fun u hu => (sat_add.1 hu).2) hrl
                    refine ⟨hs, fun _ h => h, L, rfl, ⟨fun M hM => ?_, q4⟩, fun ht => ?_⟩
                    · obtain ⟨u, k1, k2, -⟩ := q3 M hM
                      exact ⟨u, k1, k2⟩
                    · obtain ⟨k1, -, k3⟩ := q5 ht
                      refine ⟨k1, rfl, fun u hu => ?_⟩
                      let u' : α → Bool := fun x => if x ∈ N then false else u x
                      have hu' : Sat u' (s.add sm).fs := hs1.closed u u' hu (fun x _ hn => by simp [u', hn]) fun x hn => by simp [u', hn]
                      obtain ⟨v, hv, ha⟩ := g4 ht u' hu'
                      obtain ⟨M, hM, k4⟩ := k3 u' hu' _ (List.mem_map.2 ⟨v, hv, rfl⟩) (by
                        intro l hl
                        rcases List.mem_append.1 hl with hl | hl
                        · obtain ⟨x, hx, rfl⟩ := List.mem_map.1 hl
                          simp [u', hx]
                        · obtain ⟨x, hx, rfl⟩ := List.mem_map.1 hl
                          exact ha x hx)
                      refine ⟨M, hM, fun x hx => ?_⟩
                      have := k4 x hx
                      have hn : x ∉ N := fun hn => hs.nV x hn hx
                      simpa [u', hn] using this
                · simp only [Option.some.injEq, Prod.mk.injEq] at h
                  obtain ⟨rfl, rfl, rfl, rfl⟩ := h
                  exact nothing _ fun ht => absurd (ht.2 _) (by assumption)
          · simp only [Option.some.injEq, Prod.mk.injEq] at h
            obtain ⟨rfl, rfl, rfl, rfl⟩ := h
            exact nothing _ fun ht => absurd (ht.2 _) (by assumption)

/-! ### Theorems -/

theorem inv_init {s : St α} {V A : List α} (hfs : ∀ f ∈ s.fs, ∀ x ∈ f.vars, x ∈ s.kn) (hA : ∀ x ∈ A, x ∈ V → x ∈ s.kn) :
    Inv V A (V.filter (· ∉ s.kn)) (A.filter (· ∉ s.kn)) s := by
  refine ⟨fun x hx => (List.mem_filter.1 hx).1, ?_, fun x hx => (List.mem_filter.1 hx).1, ?_, ?_, ?_, ?_⟩
  · intro x hx hV
    have hx := List.mem_filter.1 hx
    exact (by simpa using hx.2 : x ∉ s.kn) (hA x hx.1 hV)
  · intro x hx
    simp [hx]
  · intro x hx hn
    by_contra hk
    exact hn (by simp [hx, hk])
  · intro x hx hk
    exact absurd hk (by simpa using (List.mem_filter.1 hx).2)
  · intro u u' hu h1 h2 f hf
    rw [← Fm.eval_congr f (v := u)]
    · exact hu f hf
    · intro x hx
      have := hfs f hf x hx
      exact (h1 x (by simp [this]) (by simp [this])).symm

theorem run_spec {g : Cfg α} (hok : g.Ok) (hw : g.Within) {F k : Nat} {V A : List α} (hV : V.Nodup) {s : St α}
    (hfs : ∀ f ∈ s.fs, ∀ x ∈ f.vars, x ∈ s.kn) (hA : ∀ x ∈ A, x ∈ V → x ∈ s.kn) {ok L cnt}
    (h : run g F k V A s = some (ok, L, cnt)) :
    cnt = L.length ∧ Sound V A s.fs L ∧ (g.Total → ok = true ∧ Complete V s.fs L) := by
  unfold run at h
  split at h
  · split at h
    · cases h
    · rename_i o s' c' n' hr
      simp only [Option.some.injEq, Prod.mk.injEq] at h
      obtain ⟨rfl, rfl, rfl⟩ := h
      obtain ⟨-, -, L, rfl, h3, h4⟩ := iterRec_spec hok hw (hV.filter _) k (inv_init hfs hA) (by intro l hl; cases hl)
        ⟨rfl, rfl, rfl, rfl⟩ (fun x hx => hw.1 _ _ _ x hx) hr
      have e : (s.add []).fs = s.fs := by simp [St.add]
      rw [e] at h3 h4
      refine ⟨by simp [Coll.more, newColl], by simpa [Coll.more, newColl] using h3, fun ht => ?_⟩
      obtain ⟨k1, -, k3⟩ := h4 ht
      exact ⟨k1, by simpa [Coll.more, newColl] using k3⟩
  · simp only [Option.some.injEq, Prod.mk.injEq] at h
    obtain ⟨rfl, rfl, rfl⟩ := h
    exact ⟨rfl, ⟨by simp, .nil⟩, fun ht => absurd (ht.2 0) (by assumption)⟩

/-- C27 (soundness, for every behaviour of the handler): each reported model is the restriction of an assignment that satisfies the solver
to the variables and additional variables, no two models agree on the variables, and the reported number is the number of models. -/
theorem C27_sound {g : Cfg α} (hok : g.Ok) (hw : g.Within) {F k : Nat} {V A : List α} (hV : V.Nodup) {s : St α}
    (hfs : ∀ f ∈ s.fs, ∀ x ∈ f.vars, x ∈ s.kn) (hA : ∀ x ∈ A, x ∈ V → x ∈ s.kn) {ok L cnt}
    (h : run g F k V A s = some (ok, L, cnt)) :
    (∀ M ∈ L, ∃ u, Sat u s.fs ∧ ∀ l, l ∈ M ↔ (l.var ∈ V ∨ l.var ∈ A) ∧ l.eval u = true) ∧
    L.Pairwise (fun M M' => ∃ x ∈ V, ∃ b, (⟨x, b⟩ : Lit α) ∈ M ∧ (⟨x, !b⟩ : Lit α) ∈ M') ∧ cnt = L.length := by
  obtain ⟨h1, h2, -⟩ := run_spec hok hw hV hfs hA h
  exact ⟨h2.restr, h2.diff, h1⟩

theorem filter_mem_sublist {S V : List α} (h : S.Sublist V) (hV : V.Nodup) : V.filter (· ∈ S) = S := by
  induction h with
  | slnil => rfl
  | @cons S V a h ih =>
    rw [List.nodup_cons] at hV
    rw [List.filter_cons_of_neg (by simp; exact fun ha => hV.1 (h.subset ha)), ih hV.2]
  | @cons_cons S V a h ih =>
    rw [List.nodup_cons] at hV
    rw [List.filter_cons_of_pos (by simp)]
    congr 1
    have := ih hV.2
    rw [← this] 
    refine List.filter_congr fun x hx => ?_
    have hne : x ≠ a := fun e => hV.1 (e ▸ hx)
    rw [this]
    simp [hne]

open Classical in
/-- C27 (enumeration): if nothing is cancelled, the reported models are, restricted to their true variables of `V`, a permutation of the subsets of
`V` that can be extended to a satisfying assignment; with the number of models equal to the model count. -/
theorem C27_enumeration {g : Cfg α} (hok : g.Ok) (hw : g.Within) (ht : g.Total) {F k : Nat} {V A : List α} (hV : V.Nodup) {s : St α}
    (hfs : ∀ f ∈ s.fs, ∀ x ∈ f.vars, x ∈ s.kn) (hA : ∀ x ∈ A, x ∈ V → x ∈ s.kn) {ok L cnt}
    (h : run g F k V A s = some (ok, L, cnt)) :
    ok = true ∧
    (L.map fun M => V.filter fun x => (⟨x, true⟩ : Lit α) ∈ M).Perm
      (V.sublists'.filter fun S => ∃ u, Sat u s.fs ∧ ∀ x ∈ V, u x = asgOf S x) ∧
    cnt = count V fun w => ∃ u, Sat u s.fs ∧ ∀ x ∈ V, u x = w x := by
  obtain ⟨h1, h2, h3⟩ := run_spec hok hw hV hfs hA h
  obtain ⟨h4, h5⟩ := h3 ht
  have hp : (L.map fun M => V.filter fun x => (⟨x, true⟩ : Lit α) ∈ M).Perm
      (V.sublists'.filter fun S => ∃ u, Sat u s.fs ∧ ∀ x ∈ V, u x = asgOf S x) := by
    rw [List.perm_ext_iff_of_nodup]
    · intro S
      rw [List.mem_map, List.mem_filter, List.mem_sublists', decide_eq_true_eq]
      constructor
      · rintro ⟨M, hM, rfl⟩
        obtain ⟨u, hu, hr⟩ := h2.restr M hM
        refine ⟨List.filter_sublist, u, hu, fun x hx => ?_⟩
        have : (⟨x, true⟩ : Lit α) ∈ M ↔ u x = true := ⟨fun h => Restr.val hr h, fun h => h ▸ Restr.mem hr hx⟩
        simp only [asgOf, List.mem_filter, hx, true_and, this]
        cases u x <;> simp
      · rintro ⟨hS, u, hu, ha⟩
        obtain ⟨M, hM, hm⟩ := h5 u hu
        obtain ⟨w, hw, hr⟩ := h2.restr M hM
        refine ⟨M, hM, ?_⟩
        conv_rhs => rw [← filter_mem_sublist hS hV]
        refine List.filter_congr fun x hx => ?_
        have h6 := ha x hx
        have h7 := hm x hx
        have h8 := Restr.val hr h7
        rw [h6] at h7 h8
        by_cases hxS : x ∈ S
        · have : asgOf S x = true := by simp [asgOf, hxS]
          rw [this] at h7
          simp [hxS, h7]
        · have : asgOf S x = false := by simp [asgOf, hxS]
          rw [this] at h8
          have hn : (⟨x, true⟩ : Lit α) ∉ M := fun h9 => by
            have := Restr.val hr h9
            rw [h8] at this
            cases this
          simp [hxS, hn]
    · unfold List.Nodup
      rw [List.pairwise_map]
      refine h2.diff.imp_of_mem ?_
      rintro M M' hM hM' ⟨x, hx, b, hb1, hb2⟩ e
      obtain ⟨u, -, hr⟩ := h2.restr M hM
      obtain ⟨u', -, hr'⟩ := h2.restr M' hM'
      have h1 := Restr.val hr hb1
      have h2 := Restr.val hr' hb2
      have h3 : (⟨x, true⟩ : Lit α) ∈ M ↔ (⟨x, true⟩ : Lit α) ∈ M' := by
        have := congrArg (x ∈ ·) e
        simpa [hx] using this
      cases b with
      | true =>
        have := Restr.val hr' (h3.1 hb1)
        rw [h2] at this
        cases this
      | false =>
        have := Restr.val hr (h3.2 hb2)
        rw [h1] at this
        cases this
    · exact (List.nodup_sublists'.2 hV).filter _
  refine ⟨h4, hp, ?_⟩
  rw [h1, ← List.length_map (as := L) (f := fun M => V.filter fun x => (⟨x, true⟩ : Lit α) ∈ M), hp.length_eq, count, List.countP_eq_length_filter]

end Verif.Enum
