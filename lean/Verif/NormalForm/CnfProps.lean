import Verif.NormalForm.PG
/-!
# Properties C10, C11, C46: Tseitin, Plaisted-Greenbaum, configured CNF

`aux n` is the n-th reserved auxiliary variable; formulas do not contain reserved variables the state may hand out (`Fresh`).
-/
set_option linter.unusedSectionVars false
namespace Verif.NF
open Verif Verif.Tree Verif.Spec Verif.Assignment
variable {α : Type} [DecidableEq α]

/-! ### C08/C09: further facts -/

/-- the negation normal form of a negation normal form is itself -/
theorem C08_nnf_idempotent (cons : Bool) (enc : Fm α → Fm α) (f : Fm α) (h : f.pbFree = true) (p : Bool) :
    nnf cons enc (nnf cons enc f p) true = nnf cons enc f p := nnf_idem f h p
/-- it introduces no variables -/
theorem C08_nnf_vars (cons : Bool) (enc : Fm α → Fm α) (f : Fm α) (h : f.pbFree = true) (p : Bool) :
    ∀ x ∈ (nnf cons enc f p).vars, x ∈ f.vars := nnf_vin (X := (· ∈ f.vars)) f h (fun _ h => h) p
/-- factorization introduces no variables, whatever a cache of this kind contains -/
theorem C09_factorize_vars {σ : Type} (cons d : Bool) (h : Hdl σ) (enc : Fm α → Fm α) (f : Fm α) (hp : f.pbFree = true) (s : FS σ α)
    (hs : ∀ e ∈ s.cache, ∀ x ∈ e.2.vars, x ∈ e.1.vars) :
    (∀ x ∈ (factRec cons d h enc f s).1.1.vars, x ∈ f.vars) ∧
    ∀ e ∈ (factRec cons d h enc f s).2.cache, ∀ x ∈ e.2.vars, x ∈ e.1.vars :=
  ⟨(factRec_vars cons d h enc f hp s hs).2, (factRec_vars cons d h enc f hp s hs).1⟩

/-! ### C10 -/

/-- states of a `CNFAuxState` reached by Tseitin transformations, with arbitrary boundaries, interleaved with other requests for auxiliary
variables; `k0` is the counter at the time the state was created -/
inductive TReach (cons : Bool) (aux : Nat → α) (bot : α) (enc : Fm α → Fm α) (k0 : Nat) : TS α → Prop
  | new : TReach cons aux bot enc k0 (.new k0)
  | call {s : TS α} (boundary : Int) (f : Fm α) (cache : List (Fm α × Fm α)) :
      TReach cons aux bot enc k0 s → f.pbFree = true → Fresh aux k0 f → CacheOK true cache → CVars cache →
      TReach cons aux bot enc k0 (tseitinCNF cons aux bot enc boundary f cache s).2.2
  | other {s : TS α} (n : Nat) : TReach cons aux bot enc k0 s → s.cnt ≤ n → TReach cons aux bot enc k0 { s with cnt := n }

theorem TInv.other {c : Bool} {aux : Nat → α} {k0 : Nat} {s : TS α} (hs : TInv c aux k0 s) {n : Nat} (h : s.cnt ≤ n) :
    TInv c aux k0 { s with cnt := n } := by
  have ex : TExt s { s with cnt := n } := ⟨fun _ _ e => e, fun _ _ => rfl, h⟩
  exact ⟨hs.lits, hs.shape, fun g t hc ht => (hs.ent g t hc ht).ext hs ex (by simp [show s.fm g = some t from ht]), hs.inj, Nat.le_trans hs.cnt h⟩

theorem TReach.inv {cons : Bool} {aux : Nat → α} {bot : α} {enc : Fm α → Fm α} {k0 : Nat} (haux : ∀ m n, aux m = aux n → m = n) {s : TS α}
    (h : TReach cons aux bot enc k0 s) : TInv cons aux k0 s := by
  induction h with
  | new => exact tInv_new _ _ _
  | call b f cache _ hp hf h1 h2 ih => exact (tseitin_ok haux ih b f hp hf h1 h2).1
  | other n _ hn ih => exact ih.other hn

/-- C10: the result is in CNF; every model of the result is a model of the formula; every model of the formula extends, changing auxiliary
variables only, to a model of the result; and that extension is the only one on the variables of the result.  For every state of the
reused cache, every boundary and every content of the factorization cache. -/
theorem C10_tseitin (cons : Bool) (aux : Nat → α) (haux : ∀ m n, aux m = aux n → m = n) (bot : α) (enc : Fm α → Fm α) (k0 : Nat) (s : TS α)
    (hs : TReach cons aux bot enc k0 s) (boundary : Int) (f : Fm α) (hp : f.pbFree = true) (hf : ∀ n, k0 ≤ n → aux n ∉ f.vars)
    (cache : List (Fm α × Fm α)) (h1 : CacheOK true cache) (h2 : CVars cache) :
    isCNF (tseitinCNF cons aux bot enc boundary f cache s).1 = true ∧
    (∀ w, (tseitinCNF cons aux bot enc boundary f cache s).1.eval w = true → f.eval w = true) ∧
    (∀ v, f.eval v = true → ∃ w, (∀ x, (∀ n, x ≠ aux n) → w x = v x) ∧ (∀ x ∈ f.vars, w x = v x) ∧
      (tseitinCNF cons aux bot enc boundary f cache s).1.eval w = true ∧
      ∀ w', (∀ x ∈ f.vars, w' x = v x) → (tseitinCNF cons aux bot enc boundary f cache s).1.eval w' = true →
        ∀ x ∈ (tseitinCNF cons aux bot enc boundary f cache s).1.vars, w' x = w x) ∧
    (∀ x ∈ (tseitinCNF cons aux bot enc boundary f cache s).1.vars, x ∈ f.vars ∨ ∃ n, k0 ≤ n ∧ x = aux n) := by
  have hf' : Fresh aux k0 f := fun x hx n hn e => hf n hn (e ▸ hx)
  obtain ⟨_, _, _, _, h3, h4⟩ := tseitin_ok (bot := bot) (enc := enc) haux (hs.inv haux) boundary f hp hf' h1 h2
  refine ⟨h3.cnf, h3.sound, ?_, fun x hx => (h3.vars x hx).imp id fun ⟨n, a, _, b⟩ => ⟨n, a, b⟩⟩
  intro v hv
  obtain ⟨w, hw, e⟩ := h3.extend v hv
  have hwf : ∀ x ∈ f.vars, w x = v x := fun x hx => hw x (hf'.off hx)
  exact ⟨w, fun x hx => hw x (fun ⟨n, _, _, h⟩ => hx n h), hwf, e,
    fun w' h5 h6 => h4 w' w (fun x hx => (h5 x hx).trans (hwf x hx).symm) h6 e⟩

/-- satisfiability is preserved -/
theorem C10_equisatisfiable (cons : Bool) (aux : Nat → α) (haux : ∀ m n, aux m = aux n → m = n) (bot : α) (enc : Fm α → Fm α) (k0 : Nat) (s : TS α)
    (hs : TReach cons aux bot enc k0 s) (boundary : Int) (f : Fm α) (hp : f.pbFree = true) (hf : ∀ n, k0 ≤ n → aux n ∉ f.vars)
    (cache : List (Fm α × Fm α)) (h1 : CacheOK true cache) (h2 : CVars cache) :
    Fm.Sat (tseitinCNF cons aux bot enc boundary f cache s).1 ↔ Fm.Sat f := by
  obtain ⟨_, h3, h4, _⟩ := C10_tseitin cons aux haux bot enc k0 s hs boundary f hp hf cache h1 h2
  constructor
  · rintro ⟨w, hw⟩; exact ⟨w, h3 w hw⟩
  · rintro ⟨v, hv⟩; obtain ⟨w, _, _, hw, _⟩ := h4 v hv; exact ⟨w, hw⟩

section examples
/-- variables: 0,2,4,… ordinary, odd numbers reserved -/
def exAux : Nat → Nat := fun n => 2 * n + 1
theorem exAux_inj : ∀ m n, exAux m = exAux n → m = n := by intro m n h; simp only [exAux] at h; omega
def xv (n : Nat) : Fm Nat := .lit ⟨2 * n, true⟩
def exF : Fm Nat := .or [.and [xv 0, xv 1], .and [xv 2, .or [xv 3, .not (xv 0)]]]

example : exF.pbFree = true ∧ (∀ n, 0 ≤ n → exAux n ∉ exF.vars) ∧ TReach false exAux 100 (fun f => f) 0 (.new 0) ∧
    isCNF (nnf false (fun f => f) exF true) = false := by
  refine ⟨by decide, ?_, .new, by decide⟩
  intro n _ h
  have : exF.vars = [0, 2, 4, 6, 0] := by decide
  rw [this] at h; simp [exAux] at h <;> omega
/-- the transformation with boundary 0 introduces three auxiliary variables and is not equivalent to its input -/
example : (tseitinCNF false exAux 100 (fun f => f) 0 exF [] (.new 0)).2.2.cnt = 4 := by decide +kernel
end examples

/-! ### C11 -/

/-- states reached by Plaisted-Greenbaum transformations none of which took the branch for small formulas -/
inductive PReach (cons : Bool) (aux : Nat → α) (bot : α) (enc : Fm α → Fm α) (k0 : Nat) : TS α → Prop
  | new : PReach cons aux bot enc k0 (.new k0)
  | call {s : TS α} (boundary : Int) (f : Fm α) (cache : List (Fm α × Fm α)) :
      PReach cons aux bot enc k0 s → f.pbFree = true → Fresh aux k0 f → CacheOK true cache → CVars cache →
      (isCNF (nnf cons enc f true) = true ∨ boundary ≤ atoms (nnf cons enc f true)) →
      PReach cons aux bot enc k0 (pgCNF cons aux bot enc boundary f cache s).2.2

theorem PReach.inv {cons : Bool} {aux : Nat → α} {bot : α} {enc : Fm α → Fm α} {k0 : Nat} (haux : ∀ m n, aux m = aux n → m = n) {s : TS α}
    (h : PReach cons aux bot enc k0 s) : PInv cons aux k0 s := by
  induction h with
  | new => exact pInv_new _ _ _
  | call b f cache _ hp hf h1 h2 hb ih => exact (pg_ok haux ih b f hp hf h1 h2).2.2.2.2 hb

/-- C11, for states reused only after transformations of large formulas: the result is in CNF, its models are models of the formula, and every
model of the formula extends to a model of the result by changing auxiliary variables only.  The missing part (states in which a small
formula was transformed before) is false, see `C11_pg_reuse_false`. -/
theorem C11_pg_partial (cons : Bool) (aux : Nat → α) (haux : ∀ m n, aux m = aux n → m = n) (bot : α) (enc : Fm α → Fm α) (k0 : Nat) (s : TS α)
    (hs : PReach cons aux bot enc k0 s) (boundary : Int) (f : Fm α) (hp : f.pbFree = true) (hf : ∀ n, k0 ≤ n → aux n ∉ f.vars)
    (cache : List (Fm α × Fm α)) (h1 : CacheOK true cache) (h2 : CVars cache) :
    isCNF (pgCNF cons aux bot enc boundary f cache s).1 = true ∧
    (∀ w, (pgCNF cons aux bot enc boundary f cache s).1.eval w = true → f.eval w = true) ∧
    (∀ v, f.eval v = true → ∃ w, (∀ x, (∀ n, x ≠ aux n) → w x = v x) ∧ (∀ x ∈ f.vars, w x = v x) ∧
      (pgCNF cons aux bot enc boundary f cache s).1.eval w = true) ∧
    (∀ x ∈ (pgCNF cons aux bot enc boundary f cache s).1.vars, x ∈ f.vars ∨ ∃ n, k0 ≤ n ∧ x = aux n) := by
  have hf' : Fresh aux k0 f := fun x hx n hn e => hf n hn (e ▸ hx)
  obtain ⟨_, _, _, h3, _⟩ := pg_ok (bot := bot) (enc := enc) haux (hs.inv haux) boundary f hp hf' h1 h2
  refine ⟨h3.cnf, h3.sound, ?_, fun x hx => (h3.vars x hx).imp id fun ⟨n, a, _, b⟩ => ⟨n, a, b⟩⟩
  intro v hv
  obtain ⟨w, hw, e⟩ := h3.extend v hv
  exact ⟨w, fun x hx => hw x (fun ⟨n, _, _, h⟩ => hx n h), fun x hx => hw x (hf'.off hx), e⟩

/-- the same for a call without a state (`PGCNF` in `normalform.CNF` and for callers passing a new state) -/
theorem C11_pg_fresh (cons : Bool) (aux : Nat → α) (haux : ∀ m n, aux m = aux n → m = n) (bot : α) (enc : Fm α → Fm α) (k0 : Nat)
    (boundary : Int) (f : Fm α) (hp : f.pbFree = true) (hf : ∀ n, k0 ≤ n → aux n ∉ f.vars)
    (cache : List (Fm α × Fm α)) (h1 : CacheOK true cache) (h2 : CVars cache) :
    isCNF (pgCNF cons aux bot enc boundary f cache (.new k0)).1 = true ∧
    (∀ v, f.eval v = true ↔ ∃ w, (∀ x, (∀ n, x ≠ aux n) → w x = v x) ∧ (∀ x ∈ f.vars, w x = v x) ∧
      (pgCNF cons aux bot enc boundary f cache (.new k0)).1.eval w = true) := by
  obtain ⟨a, b, c, _⟩ := C11_pg_partial cons aux haux bot enc k0 _ .new boundary f hp hf cache h1 h2
  exact ⟨a, fun v => ⟨c v, fun ⟨w, _, h1, h2⟩ => by rw [← b w h2]; exact (Fm.eval_congr _ h1).symm⟩⟩

section examples
def pgSmall : Fm Nat := .or [.and [xv 0, xv 1], xv 2]
def pgBig : Fm Nat := .and [.or [.and [xv 0, xv 1], xv 2], xv 3]
/-- state after transforming a small formula -/
def pgState : TS Nat := (pgCNF false exAux 100 (fun f => f) 12 pgSmall [] (.new 0)).2.2

/-- C11 fails for a state in which a small formula was transformed: `PGCNF` stores the zero literal for it (cnf.go:258), and the next
transformation takes this for the literal of the sub-formula.  The second formula is satisfiable, the result is not. -/
theorem C11_pg_reuse_false :
    pgBig.eval (fun _ => true) = true ∧
    ∀ w, (pgCNF false exAux 100 (fun f => f) 0 pgBig [] pgState).1.eval w = false := by
  refine ⟨by decide, fun w => ?_⟩
  have : (pgCNF false exAux 100 (fun f => f) 0 pgBig [] pgState).1 = .fls := by decide +kernel
  rw [this]; simp

example : pgBig.pbFree = true ∧ CacheOK true ([] : List (Fm Nat × Fm Nat)) ∧ CVars ([] : List (Fm Nat × Fm Nat)) := by
  refine ⟨by decide, by intro e he; simp at he, by intro e he; simp at he⟩
example : (pgCNF false exAux 100 (fun f => f) 0 pgBig [] (.new 0)).2.2.cnt = 3 := by decide +kernel
end examples

/-! ### C46 -/

section
variable {cons : Bool} {aux : Nat → α} {bot : α} {enc : Fm α → Fm α}

theorem Fresh.mono {k k' : Nat} {f : Fm α} (h : Fresh aux k f) (hk : k ≤ k') : Fresh aux k' f := fun x hx n hn => h x hx n (Nat.le_trans hk hn)

/-- state of the factory while `CNF` runs -/
def CSOK (c : CS α) : Prop := CacheOK true c.cache ∧ CVars c.cache

theorem single_ok (haux : ∀ m n, aux m = aux n → m = n) (cfg : Cfg) (f : Fm α) (hp : f.pbFree = true) (c : CS α) (hf : Fresh aux c.cnt f)
    (hc : CSOK c) :
    c.cnt ≤ (single cons aux bot enc cfg f c).2.cnt ∧ CSOK (single cons aux bot enc cfg f c).2 ∧
    CnfOf (Own aux c.cnt (single cons aux bot enc cfg f c).2.cnt) f (single cons aux bot enc cfg f c).1 := by
  have h1 := C09_factorize cons true (boundHdl cfg.distBound cfg.clauseBound) enc f hp ⟨c.bh, c.cache⟩ hc.1
  have h2 : CVars (factorizeWithHandler cons true (boundHdl cfg.distBound cfg.clauseBound) enc f ⟨c.bh, c.cache⟩).2.cache ∧
      ((factorizeWithHandler cons true (boundHdl cfg.distBound cfg.clauseBound) enc f ⟨c.bh, c.cache⟩).1.2 = true →
        ∀ x ∈ (factorizeWithHandler cons true (boundHdl cfg.distBound cfg.clauseBound) enc f ⟨c.bh, c.cache⟩).1.1.vars, x ∈ f.vars) := by
    unfold factorizeWithHandler
    simp only
    split
    · exact ⟨hc.2, by simp⟩
    · have := factRec_vars cons true (boundHdl cfg.distBound cfg.clauseBound) enc f hp (ask (boundHdl cfg.distBound cfg.clauseBound) .started ⟨c.bh, c.cache⟩).2 hc.2
      exact ⟨this.1, fun _ => this.2⟩
  unfold single
  generalize factorizeWithHandler cons true (boundHdl cfg.distBound cfg.clauseBound) enc f ⟨c.bh, c.cache⟩ = r at h1 h2
  simp only
  split
  · rename_i hr
    exact ⟨Nat.le_refl _, ⟨h1.1, h2.1⟩, (cnfOf_equiv (h1.2 hr).2 (h1.2 hr).1 (h2.2 hr)).1⟩
  · split
    · obtain ⟨a, b, d, e, _⟩ := pg_ok (bot := bot) (enc := enc) (c := cons) haux (pInv_new cons aux c.cnt) cfg.atomBound f hp hf h1.1 h2.1
      exact ⟨a, ⟨b, d⟩, e⟩
    · obtain ⟨_, a, b, d, e, _⟩ := tseitin_ok (bot := bot) (enc := enc) (c := cons) haux (tInv_new cons aux c.cnt) cfg.atomBound f hp hf h1.1 h2.1
      exact ⟨a, ⟨b, d⟩, e⟩

theorem Own.mono {k k' n n' : Nat} {x : α} (h : Own aux k k' x) (h1 : n ≤ k) (h2 : k' ≤ n') : Own aux n n' x := by
  obtain ⟨m, a, b, e⟩ := h; exact ⟨m, Nat.le_trans h1 a, Nat.lt_of_lt_of_le b h2, e⟩

/-- list form of `CnfOf` -/
structure CnfOfL (A : α → Prop) (fs Ts : List (Fm α)) : Prop where
  cnf : ∀ T ∈ Ts, isCNF T = true
  sound : ∀ w, Ts.all (Fm.eval w) = true → fs.all (Fm.eval w) = true
  extend : ∀ v, fs.all (Fm.eval v) = true → ∃ w, (∀ x, ¬A x → w x = v x) ∧ Ts.all (Fm.eval w) = true
  vars : ∀ T ∈ Ts, ∀ x ∈ T.vars, (∃ f ∈ fs, x ∈ f.vars) ∨ A x

theorem cnfOfL_cons (haux : ∀ m n, aux m = aux n → m = n) {k k1 k2 : Nat} (h1 : k ≤ k1) (h2 : k1 ≤ k2) {f T : Fm α} {fs Ts : List (Fm α)}
    (hf : ∀ g ∈ f :: fs, Fresh aux k g)
    (a : CnfOf (Own aux k k1) f T) (b : CnfOfL (Own aux k1 k2) fs Ts) : CnfOfL (Own aux k k2) (f :: fs) (T :: Ts) where
  cnf := by
    intro g hg; rcases List.mem_cons.1 hg with rfl | hg
    · exact a.cnf
    · exact b.cnf g hg
  sound := by
    intro w hw
    rw [List.all_cons, Bool.and_eq_true] at hw ⊢
    exact ⟨a.sound w hw.1, b.sound w hw.2⟩
  extend := by
    intro v hv
    rw [List.all_cons, Bool.and_eq_true] at hv
    obtain ⟨w1, e1, t1⟩ := a.extend v hv.1
    have : fs.all (Fm.eval w1) = true := by
      rw [← hv.2, Bool.eq_iff_iff, List.all_eq_true, List.all_eq_true]
      exact forall₂_congr fun g hg => by
        rw [Fm.eval_congr g fun x hx => e1 x ((hf g (by simp [hg])).off hx)]
    obtain ⟨w2, e2, t2⟩ := b.extend w1 this
    refine ⟨w2, fun x hx => ?_, ?_⟩
    · rw [e2 x fun h => hx (h.mono h1 (Nat.le_refl _)), e1 x fun h => hx (h.mono (Nat.le_refl _) h2)]
    · rw [List.all_cons, t2, Bool.and_true, ← t1]
      refine Fm.eval_congr T fun x hx => e2 x ?_
      rcases a.vars x hx with h | ⟨n, _, n2, rfl⟩
      · exact ((hf f (by simp)).mono h1).off h
      · rintro ⟨m, m1, _, e⟩
        have := haux _ _ e; omega
  vars := by
    intro g hg x hx; rcases List.mem_cons.1 hg with rfl | hg
    · exact (a.vars x hx).imp (fun h => ⟨f, by simp, h⟩) fun h => h.mono (Nat.le_refl _) h2
    · exact (b.vars g hg x hx).imp (fun ⟨f, hf, h⟩ => ⟨f, by simp [hf], h⟩) fun h => h.mono h1 (Nat.le_refl _)

theorem singleL_ok (haux : ∀ m n, aux m = aux n → m = n) (cfg : Cfg) : ∀ (fs : List (Fm α)) (c : CS α), (∀ f ∈ fs, f.pbFree = true) →
    (∀ f ∈ fs, Fresh aux c.cnt f) → CSOK c →
    c.cnt ≤ (singleL cons aux bot enc cfg fs c).2.cnt ∧ CSOK (singleL cons aux bot enc cfg fs c).2 ∧
    CnfOfL (Own aux c.cnt (singleL cons aux bot enc cfg fs c).2.cnt) fs (singleL cons aux bot enc cfg fs c).1
  | [], c, _, _, hc => ⟨Nat.le_refl _, hc, ⟨by simp [singleL], by simp [singleL], fun v _ => ⟨v, by simp, by simp [singleL]⟩, by simp [singleL]⟩⟩
  | f :: fs, c, hp, hf, hc => by
    obtain ⟨a1, a2, a3⟩ := single_ok (cons := cons) (bot := bot) (enc := enc) haux cfg f (hp f (by simp)) c (hf f (by simp)) hc
    obtain ⟨b1, b2, b3⟩ := singleL_ok haux cfg fs (single cons aux bot enc cfg f c).2 (fun g h => hp g (by simp [h]))
      (fun g h => (hf g (by simp [h])).mono a1) a2
    rw [singleL]
    exact ⟨Nat.le_trans a1 b1, b2, cnfOfL_cons haux a1 b1 hf a3 b3⟩

theorem advanced_ok (haux : ∀ m n, aux m = aux n → m = n) (cfg : Cfg) (f : Fm α) (hp : f.pbFree = true) (c : CS α) (hf : Fresh aux c.cnt f)
    (hc : CSOK c) :
    c.cnt ≤ (advanced cons aux bot enc cfg f c).2.cnt ∧ CSOK (advanced cons aux bot enc cfg f c).2 ∧
    CnfOf (Own aux c.cnt (advanced cons aux bot enc cfg f c).2.cnt) f (advanced cons aux bot enc cfg f c).1 := by
  unfold advanced
  simp only
  split
  · rename_i fs
    simp only [Fm.pbFree_and, List.all_eq_true] at hp
    obtain ⟨b1, b2, b3⟩ := singleL_ok (cons := cons) (bot := bot) (enc := enc) haux cfg fs { c with bh := ⟨false, 0, 0⟩ } hp (VIn.and_iff.1 hf) hc
    refine ⟨b1, b2, isCNF_tAnd b3.cnf, ?_, ?_, ?_⟩
    · intro w hw; rw [eval_tAnd] at hw; rw [Fm.eval_and]; exact b3.sound w hw
    · intro v hv; rw [Fm.eval_and] at hv
      obtain ⟨w, e, t⟩ := b3.extend v hv
      exact ⟨w, e, by rw [eval_tAnd]; exact t⟩
    · refine VIn.tAnd (X := fun x => x ∈ (Fm.and fs).vars ∨ Own aux c.cnt _ x) ?_
      intro T hT x hx
      exact (b3.vars T hT x hx).imp (fun ⟨f, h, hx⟩ => by simp only [Fm.vars_and, List.mem_flatMap]; exact ⟨f, h, hx⟩) id
  · exact single_ok (cons := cons) (bot := bot) (enc := enc) haux cfg f hp { c with bh := ⟨false, 0, 0⟩ } hf hc

/-- C46: whatever the configured algorithm, fallback algorithm and bounds, and whatever the factory's caches contain: `CNF` returns a formula in
conjunctive normal form whose models, projected to the variables of the input, are the models of the input; it may only contain variables of
the input and auxiliary variables handed out during the call. -/
theorem C46_cnf_partial (cons : Bool) (aux : Nat → α) (haux : ∀ m n, aux m = aux n → m = n) (bot : α) (enc : Fm α → Fm α) (cfg : Cfg) (f : Fm α)
    (hp : f.pbFree = true) (c : CS α) (hf : ∀ n, c.cnt ≤ n → aux n ∉ f.vars) (h1 : CacheOK true c.cache) (h2 : CVars c.cache) :
    isCNF (cnf cons aux bot enc cfg f c).1 = true ∧
    (∀ v, f.eval v = true ↔ ∃ w, (∀ x, (∀ n, c.cnt ≤ n → x ≠ aux n) → w x = v x) ∧ (cnf cons aux bot enc cfg f c).1.eval w = true) ∧
    (∀ x ∈ (cnf cons aux bot enc cfg f c).1.vars, x ∈ f.vars ∨ ∃ n, c.cnt ≤ n ∧ n < (cnf cons aux bot enc cfg f c).2.cnt ∧ x = aux n) ∧
    c.cnt ≤ (cnf cons aux bot enc cfg f c).2.cnt ∧
    CacheOK true (cnf cons aux bot enc cfg f c).2.cache ∧ CVars (cnf cons aux bot enc cfg f c).2.cache := by
  have hf' : Fresh aux c.cnt f := fun x hx n hn e => hf n hn (e ▸ hx)
  have main : c.cnt ≤ (cnf cons aux bot enc cfg f c).2.cnt ∧ CSOK (cnf cons aux bot enc cfg f c).2 ∧
      CnfOf (Own aux c.cnt (cnf cons aux bot enc cfg f c).2.cnt) f (cnf cons aux bot enc cfg f c).1 := by
    unfold cnf
    split
    · have := factorize_all (c := cons) (enc := enc) f hp h1 h2
      exact ⟨Nat.le_refl _, ⟨this.2.2.2.1, this.2.2.2.2⟩, (cnfOf_equiv this.1 this.2.1 this.2.2.1).1⟩
    · obtain ⟨a, b, d, e, _⟩ := pg_ok (bot := bot) (enc := enc) (c := cons) haux (pInv_new cons aux c.cnt) cfg.atomBound f hp hf' h1 h2
      exact ⟨a, ⟨b, d⟩, e⟩
    · obtain ⟨_, a, b, d, e, _⟩ := tseitin_ok (bot := bot) (enc := enc) (c := cons) haux (tInv_new cons aux c.cnt) cfg.atomBound f hp hf' h1 h2
      exact ⟨a, ⟨b, d⟩, e⟩
    · exact advanced_ok haux cfg f hp c hf' ⟨h1, h2⟩
  obtain ⟨a, b, d⟩ := main
  refine ⟨d.cnf, fun v => ⟨fun hv => ?_, fun ⟨w, e, t⟩ => ?_⟩, fun x hx => d.vars x hx, a, b.1, b.2⟩
  · obtain ⟨w, e, t⟩ := d.extend v hv
    exact ⟨w, fun x hx => e x (fun ⟨n, n1, _, h⟩ => hx n n1 h), t⟩
  · rw [← d.sound w t]
    exact Fm.eval_congr f fun x hx => (e x fun n hn h => hf n hn (h ▸ hx)).symm
end

section examples
/-- bounds of 0 force the fallback for both operands of the conjunction, which then use disjoint ranges of auxiliary variables -/
def cfg0 : Cfg := ⟨.advanced, .tseitin, 0, 0, 0⟩
def exG : Fm Nat := .and [exF, .or [.and [xv 1, xv 2], .and [xv 3, xv 4]]]
example : exG.pbFree = true ∧ (∀ n, 0 ≤ n → exAux n ∉ exG.vars) := by
  refine ⟨by decide, ?_⟩
  intro n _ h
  have : exG.vars = [0, 2, 4, 6, 0, 2, 4, 6, 8] := by decide
  rw [this] at h; simp [exAux] at h <;> omega
example : (cnf false exAux 100 (fun f => f) cfg0 exG ⟨[], 0, ⟨false, 0, 0⟩⟩).2.cnt = 7 := by decide +kernel
end examples

end Verif.NF
