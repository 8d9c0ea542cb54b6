import Verif.NormalForm.Cancel
/-!
# C08, C09 and the and-inverter graph

`enc` is the encoder of cardinality and pseudo-Boolean constraints, an arbitrary function where the formula has no constraints.  `cons` is
the factory's `conserveVars` flag, arbitrary.
-/
namespace Verif.NF
open Verif Verif.Tree Verif.Spec
variable {α : Type} [DecidableEq α] {σ : Type}

/-! ### C08 -/

/-- the NNF of a formula without constraints is equivalent to it -/
theorem C08_nnf_equivalent (cons : Bool) (enc : Fm α → Fm α) (f : Fm α) (h : f.pbFree = true) :
    Fm.Equivalent (nnf cons enc f true) f := by
  intro v; rw [nnf_eval f h]; simp

/-- with negative polarity the result is equivalent to the negation -/
theorem C08_nnf_negative (cons : Bool) (enc : Fm α → Fm α) (f : Fm α) (h : f.pbFree = true) :
    Fm.Equivalent (nnf cons enc f false) (.not f) := by
  intro v; rw [nnf_eval f h]; simp

/-- the NNF of a formula without constraints consists of constants, literals, conjunctions and disjunctions -/
theorem C08_nnf_shape (cons : Bool) (enc : Fm α → Fm α) (f : Fm α) (h : f.pbFree = true) (p : Bool) : isNNF (nnf cons enc f p) = true :=
  (nnf_pbFree_core f h p).isNNF

example : (Fm.equiv (.impl (.lit ⟨0, true⟩) (.lit ⟨1, false⟩)) (.not (.or [.lit ⟨2, true⟩, .lit ⟨3, true⟩]))).pbFree = true := by decide
example : nnf false (fun f => f) (Fm.equiv (.lit ⟨0, true⟩) (.not (.or [.lit ⟨2, true⟩, .lit ⟨3, true⟩]))) true =
    .and [.or [.lit ⟨0, false⟩, .and [.lit ⟨2, false⟩, .lit ⟨3, false⟩]], .or [.lit ⟨0, true⟩, .lit ⟨2, true⟩, .lit ⟨3, true⟩]] := by
  decide

/-- with constraints: if at `v` the encoder is exact for every constraint the recursion can meet, so is the NNF -/
theorem C08_nnf_pb (cons : Bool) (enc : Fm α → Fm α) (f : Fm α) (v : α → Bool)
    (he : ∀ g ∈ pbs f, isPB g = true → (enc g).eval v = g.eval v) (p : Bool) : (nnf cons enc f p).eval v = (f.eval v == p) := by
  have h1 := nnf_sound (cons := cons) (enc := enc) (v := v) f (fun g hg hp h => (he g hg hp) ▸ h) p
  have h2 := nnf_complete (cons := cons) (enc := enc) (v := v) f (fun g hg hp h => (he g hg hp).trans h) p
  cases e : (nnf cons enc f p).eval v
  · cases e' : f.eval v == p
    · rfl
    · simp at e'; simp [h2 e'] at e
  · simp [h1 e]

/-- a cardinality constraint under a negation, encoder exact -/
example : ∃ g ∈ pbs (Fm.not (.cc .le 1 [0, 1, 2])), isPB g = true := by decide

/-! ### C09.  `d = true`: CNF, `d = false`: DNF -/

/-- a transformation cache is right if it only holds equivalent normal forms -/
def CacheOK (d : Bool) (cache : List (Fm α × Fm α)) : Prop :=
  ∀ e ∈ cache, Fm.Equivalent e.1 e.2 ∧ (if d then isCNF e.2 else isDNF e.2) = true

omit [DecidableEq α] in
theorem cacheOK_iff {d : Bool} {cache : List (Fm α × Fm α)} : CacheOK d cache ↔ ∀ b v, COK b v d cache := by
  constructor
  · intro h b v e he
    exact ⟨Rel.of_eq ((h e he).1 v).symm, (h e he).2⟩
  · intro h e he
    refine ⟨fun v => ?_, (h true (fun _ => true) e he).2⟩
    have h1 := (h true v e he).1
    have h2 := (h false v e he).1
    simp only [Rel, if_true, Bool.false_eq_true, if_false] at h1 h2
    cases e1 : e.1.eval v <;> cases e2 : e.2.eval v <;> simp_all

omit [DecidableEq α] in
theorem encOK_pbFree {b : Bool} {v : α → Bool} {enc : Fm α → Fm α} {f : Fm α} (h : f.pbFree = true) : EncOK b v enc f := by
  unfold EncOK; simp [pbs_pbFree f h]

/-- For every handler, every handler state and every right cache: a run which reports success returns an equivalent formula in normal form,
and whether it succeeds or not the cache is right afterwards. -/
theorem C09_factorize (cons d : Bool) (h : Hdl σ) (enc : Fm α → Fm α) (f : Fm α) (hf : f.pbFree = true) (s : FS σ α)
    (hs : CacheOK d s.cache) :
    CacheOK d (factorizeWithHandler cons d h enc f s).2.cache ∧
    ((factorizeWithHandler cons d h enc f s).1.2 = true →
      Fm.Equivalent (factorizeWithHandler cons d h enc f s).1.1 f ∧
      (if d then isCNF (factorizeWithHandler cons d h enc f s).1.1 else isDNF (factorizeWithHandler cons d h enc f s).1.1) = true) := by
  unfold factorizeWithHandler
  simp only
  split
  · exact ⟨hs, by simp⟩
  · have key : ∀ b v, ROK b v d f (factRec cons d h enc f (ask h .started s).2) :=
      fun b v => factRec_ok cons d h enc f (encOK_pbFree hf) _ (cacheOK_iff.1 hs b v)
    refine ⟨cacheOK_iff.2 fun b v => (key b v).1, fun h1 => ⟨fun v => ?_, ((key true (fun _ => true)).2 h1).2⟩⟩
    have h2 := ((key true v).2 h1).1
    have h3 := ((key false v).2 h1).1
    simp only [Rel, if_true, Bool.false_eq_true, if_false] at h2 h3
    cases e1 : f.eval v <;> cases e2 : (factRec cons d h enc f (ask h .started s).2).1.1.eval v <;> simp_all

/-- Without a handler the factorization always succeeds, with an equivalent normal form. -/
theorem C09_factorize_nop (cons d : Bool) (enc : Fm α → Fm α) (f : Fm α) (hf : f.pbFree = true) (cache : List (Fm α × Fm α))
    (hs : CacheOK d cache) :
    Fm.Equivalent (factorize cons d enc cache f).1 f ∧
    (if d then isCNF (factorize cons d enc cache f).1 else isDNF (factorize cons d enc cache f).1) = true ∧
    CacheOK d (factorize cons d enc cache f).2 := by
  have h0 := C09_factorize cons d nopHdl enc f hf ⟨(), cache⟩ hs
  have h1 : factorizeWithHandler cons d nopHdl enc f ⟨(), cache⟩ = factRec cons d nopHdl enc f ⟨(), cache⟩ := rfl
  rw [h1] at h0
  have h2 := h0.2 (factRec_nop cons d enc f cache)
  exact ⟨h2.1, h2.2, h0.1⟩

/-- A run reports success exactly if the handler never answered `false`, and no event is asked after a cancellation: the answers of the run
are `true`, …, `true`, followed by one `false` exactly if the run did not succeed.  (`logged h` is `h` recording its answers.) -/
theorem C09_cancellation (cons d : Bool) (h : Hdl σ) (enc : Fm α → Fm α) (f : Fm α) (s0 : σ) (cache : List (Fm α × Fm α)) :
    ∃ n, (factorizeWithHandler cons d (logged h) enc f ⟨(s0, []), cache⟩).2.h.2.reverse =
      List.replicate n true ++ (if (factorizeWithHandler cons d (logged h) enc f ⟨(s0, []), cache⟩).1.2 then [] else [false]) := by
  obtain ⟨n, hn⟩ := factorize_run cons d h enc f ⟨(s0, []), cache⟩
  refine ⟨n, ?_⟩
  rw [hn]
  split <;> simp

/-- hence: whenever the handler cancels, the run does not report success -/
theorem C09_cancelled_no_success (cons d : Bool) (h : Hdl σ) (enc : Fm α → Fm α) (f : Fm α) (s0 : σ) (cache : List (Fm α × Fm α)) :
    (factorizeWithHandler cons d (logged h) enc f ⟨(s0, []), cache⟩).1.2 = false ↔
      false ∈ (factorizeWithHandler cons d (logged h) enc f ⟨(s0, []), cache⟩).2.h.2 := by
  obtain ⟨n, hn⟩ := C09_cancellation cons d h enc f s0 cache
  rw [← List.mem_reverse, hn]
  cases (factorizeWithHandler cons d (logged h) enc f ⟨(s0, []), cache⟩).1.2 <;> simp [List.mem_replicate]

/-- recording does not change the handler -/
theorem C09_logged_same (h : Hdl σ) (s : σ) (l : List Bool) (e : Ev) :
    ((logged h).resume (s, l) e).1 = (h.resume s e).1 ∧ ((logged h).resume (s, l) e).2.1 = (h.resume s e).2 := ⟨rfl, rfl⟩

/-- The bound handler really bounds: in a successful run with `FactorizationHandler(distBound, clauseBound)` … the counters never exceed the
bounds at the moment the handler resumes. -/
theorem C09_bound_handler (db cb : Int) (s : BH) (e : Ev) (h : ((boundHdl db cb).resume s e).1 = true) :
    (e = .distribution → db = -1 ∨ ((boundHdl db cb).resume s e).2.dists ≤ db) ∧
    (e = .createdClause → cb = -1 ∨ ((boundHdl db cb).resume s e).2.clauses ≤ cb) := by
  cases e <;> simp [boundHdl] at h ⊢ <;> omega

/-- an example for each outcome: (A ∧ B) ∨ (C ∧ D) -/
def exFm : Fm Nat := .or [.and [.lit ⟨0, true⟩, .lit ⟨1, true⟩], .and [.lit ⟨2, true⟩, .lit ⟨3, true⟩]]
example : exFm.pbFree = true := by decide
example : ((factorizeWithHandler false true (boundHdl 100 100) id exFm ⟨⟨false, 0, 0⟩, []⟩).1.2 = true) := by decide +kernel
example : ((factorizeWithHandler false true (boundHdl 100 2) id exFm ⟨⟨false, 0, 0⟩, []⟩).1.2 = false) := by decide +kernel
example : (factorize false true id [] exFm).1 = .and [.or [.lit ⟨2, true⟩, .lit ⟨0, true⟩], .or [.lit ⟨3, true⟩, .lit ⟨0, true⟩],
    .or [.lit ⟨2, true⟩, .lit ⟨1, true⟩], .or [.lit ⟨3, true⟩, .lit ⟨1, true⟩]] := by decide +kernel

/-- The canceled flag of the handler is never reset by the start event (handler.go:22-36): a handler object which cancelled one
factorization cancels the next one at its start. -/
theorem C09_handler_not_reusable :
    ∃ s : FS BH Nat, (factorizeWithHandler false true (boundHdl 100 2) id exFm ⟨⟨false, 0, 0⟩, []⟩).2 = s ∧
      (factorizeWithHandler false true (boundHdl 100 2) id (.lit ⟨0, true⟩) s).1.2 = false :=
  ⟨_, rfl, by decide +kernel⟩

/-! ### C47: and-inverter graph -/

omit [DecidableEq α] in
theorem eval_tNot' (v : α → Bool) (f : Fm α) : (tNot f).eval v = !f.eval v := eval_tNot v f

theorem aigL_eq (cons : Bool) (cnfOf : Fm α → Fm α) : ∀ fs, aigL cons cnfOf fs = fs.map (aig cons cnfOf)
  | [] => by simp [aigL]
  | f :: fs => by simp [aigL, aigL_eq cons cnfOf fs]

/-- the AIG of a formula without constraints is equivalent to it -/
theorem C47_aig_equivalent (cons : Bool) (cnfOf : Fm α → Fm α) (f : Fm α) (h : f.pbFree = true) : Fm.Equivalent (aig cons cnfOf f) f := by
  intro v
  induction f using Fm.ind with
  | hf => simp [aig]
  | ht => simp [aig]
  | hl l => simp [aig]
  | hn f ih => simp at h; simp [aig, ih h]
  | ha fs ih =>
    simp at h
    simp only [aig, aigL_eq, eval_tAnd, List.all_map, Fm.eval_and]
    rw [Bool.eq_iff_iff, List.all_eq_true, List.all_eq_true]
    exact forall₂_congr fun f hf => by simp [ih f hf (h f hf)]
  | ho fs ih =>
    simp at h
    simp only [aig, aigL_eq, eval_tAnd, eval_tNot, List.all_map, Fm.eval_or]
    rw [Bool.eq_iff_iff, List.not_all_eq_any_not, List.any_eq_true, List.any_eq_true]
    exact exists_congr fun f => and_congr_right fun hf => by simp [ih f hf (h f hf)]
  | hi f g h1 h2 => simp at h; simp [aig, h1 h.1, h2 h.2]
  | he f g h1 h2 =>
    simp at h
    simp only [aig, eval_tAnd, eval_tNot, List.all_cons, List.all_nil, h1 h.1, h2 h.2, Fm.eval_equiv]
    cases f.eval v <;> cases g.eval v <;> rfl
  | hc => simp at h
  | hp => simp at h

mutual
/-- no equivalence occurs -/
def equivFree : Fm α → Bool
  | .not f => equivFree f
  | .and fs => equivFreeL fs
  | .or fs => equivFreeL fs
  | .impl f g => equivFree f && equivFree g
  | .equiv _ _ => false
  | _ => true
def equivFreeL : List (Fm α) → Bool
  | [] => true
  | f :: fs => equivFree f && equivFreeL fs
end
omit [DecidableEq α] in
theorem equivFreeL_mem : ∀ {fs : List (Fm α)}, equivFreeL fs = true → ∀ f ∈ fs, equivFree f = true
  | [], _, f, hf => by simp at hf
  | g :: fs, h, f, hf => by
    simp [equivFreeL] at h
    rcases List.mem_cons.1 hf with rfl | hf
    · exact h.1
    · exact equivFreeL_mem h.2 f hf

omit [DecidableEq α] in
theorem isAIG_tNot {f : Fm α} (h : isAIG f = true) : isAIG (tNot f) = true := by
  cases f <;> simp_all [tNot, isAIG]
theorem isAIG_tAnd {c : Bool} {fs : List (Fm α)} (h : ∀ f ∈ fs, isAIG f = true) : isAIG (tAnd c fs) = true := by
  have key : ∀ g, AndOp fs g → isAIG g = true := by
    rintro g ⟨h1, h2, ⟨h3, h4⟩ | ⟨gs, h3, h4⟩⟩
    · exact h g h3
    · have := h _ h3
      simp only [isAIG_and, List.all_eq_true] at this
      exact this g h4
  refine tAnd_elim (P := fun f => isAIG f = true) (by simp) (by simp) key ?_
  intro a _ _ h
  simp only [isAIG_and, List.all_eq_true]
  exact fun g hg => key g (h g hg)

/-- The AIG consists of constants, literals, conjunctions and negations — for formulas without equivalence.  The full statement (every
formula without constraints) is false, see `C47_aig_shape_false`: the case of the equivalence (aig.go:60-65) uses the operands
themselves instead of their AIG in the second conjunct. -/
theorem C47_aig_shape_partial (cons : Bool) (cnfOf : Fm α → Fm α) (f : Fm α) (h : f.pbFree = true) (he : equivFree f = true) :
    isAIG (aig cons cnfOf f) = true := by
  induction f using Fm.ind with
  | hf => simp [aig]
  | ht => simp [aig]
  | hl l => simp [aig]
  | hn f ih => simp at h; simp [equivFree] at he; rw [aig]; exact isAIG_tNot (ih h he)
  | ha fs ih =>
    simp at h; simp only [equivFree] at he
    rw [aig, aigL_eq]
    refine isAIG_tAnd ?_
    simp only [List.mem_map]
    rintro _ ⟨f, hf, rfl⟩
    exact ih f hf (h f hf) (equivFreeL_mem he f hf)
  | ho fs ih =>
    simp at h; simp only [equivFree] at he
    rw [aig, aigL_eq]
    refine isAIG_tNot (isAIG_tAnd ?_)
    simp only [List.mem_map]
    rintro _ ⟨_, ⟨f, hf, rfl⟩, rfl⟩
    exact isAIG_tNot (ih f hf (h f hf) (equivFreeL_mem he f hf))
  | hi f g h1 h2 =>
    simp at h; simp [equivFree] at he
    rw [aig]
    refine isAIG_tNot (isAIG_tAnd ?_)
    intro k hk
    simp only [List.mem_cons, List.not_mem_nil, or_false] at hk
    rcases hk with rfl | rfl
    · exact h1 h.1 he.1
    · exact isAIG_tNot (h2 h.2 he.2)
  | he f g h1 h2 => simp [equivFree] at he
  | hc => simp at h
  | hp => simp at h

/-- the AIG of (A ∨ B) ⇔ C contains a disjunction -/
theorem C47_aig_shape_false : ∃ f : Fm Nat, f.pbFree = true ∧ isAIG (aig false id f) = false :=
  ⟨.equiv (.or [.lit ⟨0, true⟩, .lit ⟨1, true⟩]) (.lit ⟨2, true⟩), by decide, by decide +kernel⟩

example : ∃ f : Fm Nat, f.pbFree = true ∧ equivFree f = true ∧ f = .impl (.or [.lit ⟨0, true⟩, .lit ⟨1, true⟩]) (.lit ⟨2, true⟩) :=
  ⟨_, by decide, by decide, rfl⟩

end Verif.NF
