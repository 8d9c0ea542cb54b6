import Verif.NormalForm.CnfProps
/-! C46 and C09 for formulas with cardinality and pseudo-Boolean constraints inside.

`enc` is the (memoised) encoding of a constraint as in C08: the transformation cache of `NNF` (normalform/nnf.go:47-50, 98) holds one encoding per
constraint.  `P` is the set of the constraints that may occur; the encoder has to be right on them. -/
set_option linter.unusedSectionVars false
namespace Verif.NF
open Verif Verif.Tree Verif.Spec
variable {α : Type} [DecidableEq α] {σ : Type}

/-- the constraints of `f` (those of which `nnf` may ask the encoder) belong to `P` -/
def Within (P : Fm α → Prop) (f : Fm α) : Prop := ∀ g ∈ pbs f, isPB g = true → P g

/-- at `v` the encodings of the constraints that hold do hold -/
def Good (P : Fm α → Prop) (enc : Fm α → Fm α) (v : α → Bool) : Prop := ∀ g, P g → isPB g = true → g.eval v = true → (enc g).eval v = true

/-- variables that a normal form of `f` may have besides its own auxiliary variables -/
def EVar (enc : Fm α → Fm α) (f : Fm α) (x : α) : Prop := x ∈ f.vars ∨ ∃ g ∈ pbs f, isPB g = true ∧ x ∈ (enc g).vars

/-- what is asked of the encoder: the encoding is a CNF of the shape built by the factory, and implies the constraint -/
structure EncGood (c : Bool) (P : Fm α → Prop) (enc : Fm α → Fm α) : Prop where
  cnd : ∀ g, P g → isPB g = true → CndC c (enc g)
  cnf : ∀ g, P g → isPB g = true → isCNF (enc g) = true
  sound : ∀ g, P g → isPB g = true → ∀ w, (enc g).eval w = true → g.eval w = true

section nnf
variable {c : Bool} {P : Fm α → Prop} {enc : Fm α → Fm α}

theorem nnfPB_ind {Q : Fm α → Prop} (ht : Q .tru) (hf : Q .fls) (hor : ∀ fs : List (Fm α), (∀ f ∈ fs, Q f) → Q (tOr c fs)) {cm : Cmp} {k : Int}
    {ts : List (Int × Lit α)} (he : ∀ g ∈ negParts cm k ts, isPB g = true → Q (enc g)) : Q (nnfPB c enc (negatePBC c cm k ts)) := by
  have one : ∀ g, NegShape (negParts cm k ts) g → Q (encC enc g) := by
    rintro g (rfl | rfl | ⟨h1, h2⟩)
    · exact ht
    · exact hf
    · rw [encC_isPB h1]; exact he g h2 h1
  rcases negatePBC_shape c cm k ts with h' | ⟨fs, e, h'⟩
  · rw [nnfPB_neg h']; exact one _ h'
  · rw [e, nnfPB_or]
    refine hor _ ?_
    intro g hg
    obtain ⟨f, hf, rfl⟩ := List.mem_map.1 hg
    exact one f (h' f hf)

/-- whatever holds of constants, literals of `f` and encodings and is kept by the constructors holds of the NNF -/
theorem nnf_ind {Q : Fm α → Prop} (ht : Q .tru) (hf : Q .fls) (hand : ∀ fs : List (Fm α), (∀ f ∈ fs, Q f) → Q (tAnd c fs))
    (hor : ∀ fs : List (Fm α), (∀ f ∈ fs, Q f) → Q (tOr c fs)) (f : Fm α) (hl : ∀ l : Lit α, l.var ∈ f.vars → Q (.lit l))
    (he : ∀ g ∈ pbs f, isPB g = true → Q (enc g)) : ∀ p, Q (nnf c enc f p) := by
  induction f using Fm.ind with
  | hf => intro p; rw [nnf]; cases p <;> simp [tNot, ht, hf]
  | ht => intro p; rw [nnf]; cases p <;> simp [tNot, ht, hf]
  | hl l => intro p; rw [nnf]; cases p <;> simp only [tNot, if_true, Bool.false_eq_true, if_false] <;> exact hl _ (by simp [Lit.neg])
  | hn f ih => intro p; rw [nnf]; exact ih (by simpa using hl) (by simpa using he) _
  | ha fs ih =>
    intro p
    rw [nnf, nnfL_eq]
    have : ∀ g ∈ fs.map (fun f => nnf c enc f p), Q g := by
      intro g hg
      obtain ⟨f, hf, rfl⟩ := List.mem_map.1 hg
      exact ih f hf (fun l h => hl l (by simp only [Fm.vars_and, List.mem_flatMap]; exact ⟨f, hf, h⟩))
        (fun g hg => he g (by simp only [pbs_and, List.mem_flatMap]; exact ⟨f, hf, hg⟩)) p
    split
    · exact hand _ this
    · exact hor _ this
  | ho fs ih =>
    intro p
    rw [nnf, nnfL_eq]
    have : ∀ g ∈ fs.map (fun f => nnf c enc f p), Q g := by
      intro g hg
      obtain ⟨f, hf, rfl⟩ := List.mem_map.1 hg
      exact ih f hf (fun l h => hl l (by simp only [Fm.vars_or, List.mem_flatMap]; exact ⟨f, hf, h⟩))
        (fun g hg => he g (by simp only [pbs_or, List.mem_flatMap]; exact ⟨f, hf, hg⟩)) p
    split
    · exact hor _ this
    · exact hand _ this
  | hi f g h1 h2 =>
    intro p
    have h1 := h1 (fun l h => hl l (by simp [h])) fun g hg => he g (by simp [hg])
    have h2 := h2 (fun l h => hl l (by simp [h])) fun g hg => he g (by simp [hg])
    rw [nnf]
    split
    · exact hor _ (by simp [h1, h2])
    · exact hand _ (by simp [h1, h2])
  | he f g h1 h2 =>
    intro p
    have h1 := h1 (fun l h => hl l (by simp [h])) fun g hg => he g (by simp [hg])
    have h2 := h2 (fun l h => hl l (by simp [h])) fun g hg => he g (by simp [hg])
    have o : ∀ p q, Q (tOr c [nnf c enc f p, nnf c enc g q]) := fun p q => hor _ (by simp [h1, h2])
    rw [nnf]
    split
    · exact hand _ (by simp [o])
    · exact hand _ (by simp [o])
  | hc cm k xs =>
    intro p
    rw [nnf]
    split
    · exact he _ (by simp) rfl
    · exact nnfPB_ind ht hf hor fun g hg h => he g (by simp [hg]) h
  | hp cm k ts =>
    intro p
    rw [nnf]
    split
    · exact he _ (by simp) rfl
    · exact nnfPB_ind ht hf hor fun g hg h => he g (by simp [hg]) h

theorem nnf_cndE (hE : EncGood c P enc) {f : Fm α} (hf : Within P f) (p : Bool) : CndC c (nnf c enc f p) :=
  nnf_ind (.inl rfl) (.inr (.inl rfl)) (fun _ => cndC_tAnd) (fun _ => cndC_tOr) f (fun l _ => .lit c l) (fun g hg h => hE.cnd g (hf g hg h) h) p

theorem nnf_vinE (f : Fm α) (p : Bool) : VIn (EVar enc f) (nnf c enc f p) :=
  nnf_ind (Q := VIn (EVar enc f)) (by simp [VIn]) (by simp [VIn]) (fun _ => VIn.tAnd) (fun _ => VIn.tOr) f
    (fun l h => by intro x hx; simp at hx; subst hx; exact .inl h) (fun g hg h x hx => .inr ⟨g, hg, h, hx⟩) p

theorem CndC.pbFree {f : Fm α} (h : CndC c f) : f.pbFree = true := isNNF_pbFree _ h.coreC.isNNF

/-- NNF is idempotent also on formulas with constraints -/
theorem nnf_idemE (hE : EncGood c P enc) {f : Fm α} (hf : Within P f) (p : Bool) : nnf c enc (nnf c enc f p) true = nnf c enc f p := by
  rcases nnf_cndE hE hf p with e | e | e
  · rw [e]; simp [nnf]
  · rw [e]; simp [nnf]
  · exact nnf_id e

theorem nnf_soundE (hE : EncGood c P enc) {f : Fm α} (hf : Within P f) {w : α → Bool} (h : (nnf c enc f true).eval w = true) : f.eval w = true :=
  nnf_sound f (fun g hg hp => hE.sound g (hf g hg hp) hp w) true h
theorem nnf_completeE {f : Fm α} (hf : Within P f) {w : α → Bool} (hw : Good P enc w) (h : f.eval w = true) : (nnf c enc f true).eval w = true :=
  nnf_complete f (fun g hg hp => hw g (hf g hg hp) hp) true h
end nnf

/-! ### variables -/

/-- no entry of the cache has variables but those of its key and of the encodings of the constraints of its key -/
def CVarsE (enc : Fm α → Fm α) (cache : List (Fm α × Fm α)) : Prop := ∀ e ∈ cache, VIn (EVar enc e.1) e.2

def RVE (enc : Fm α → Fm α) (f : Fm α) (r : (Fm α × Bool) × FS σ α) : Prop := CVarsE enc r.2.cache ∧ VIn (EVar enc f) r.1.1

section vars
variable {cons d : Bool} {h : Hdl σ} {enc : Fm α → Fm α} {onNNF : Fm α → FS σ α → (Fm α × Bool) × FS σ α}

theorem EVar.core {f : Fm α} (hf : CoreC f) {x : α} (h : EVar enc f x) : x ∈ f.vars := by
  rcases h with h | ⟨g, hg, _⟩
  · exact h
  · rw [core_pbs f hf] at hg; simp at hg

theorem cached_varsE {f : Fm α} {s : FS σ α} {k : (Fm α × Bool) × FS σ α} (hs : CVarsE enc s.cache) (hk : RVE enc f k) : RVE enc f (cached d f s k) := by
  unfold cached
  split
  · rename_i g hg
    refine ⟨hs, ?_⟩
    unfold lookupCache at hg
    split at hg
    · simp at hg; subst hg; exact fun x hx => .inl hx
    · exact hs _ (lookup_mem hg)
  · unfold finish
    split
    · refine ⟨?_, hk.2⟩
      intro e he
      rcases List.mem_cons.1 he with rfl | he
      · exact hk.2
      · exact hk.1 e he
    · exact ⟨hk.1, by simp [VIn]⟩

theorem factOps_varsE : ∀ (fs : List (Fm α)) (s : FS σ α),
    (∀ f ∈ fs, ∀ s, CVarsE enc s.cache → RVE enc f (factBody cons d h enc onNNF f s)) → CVarsE enc s.cache →
    CVarsE enc (factOps cons d h enc onNNF fs s).2.cache ∧
      ∀ g ∈ (factOps cons d h enc onNNF fs s).1.1, VIn (fun x => ∃ f ∈ fs, EVar enc f x) g
  | [], s, _, hs => by simp [factOps, hs]
  | f :: fs, s, hf, hs => by
    have h1 := hf f (by simp) s hs
    have ih := factOps_varsE fs (factBody cons d h enc onNNF f s).2 (fun g hg => hf g (by simp [hg])) h1.1
    rw [factOps]
    simp only
    split
    · exact ⟨h1.1, by simp⟩
    · refine ⟨ih.1, ?_⟩
      intro g hg
      rcases List.mem_cons.1 hg with rfl | hg
      · exact fun x hx => ⟨f, by simp, h1.2 x hx⟩
      · intro x hx
        obtain ⟨k, hk, h2⟩ := ih.2 g hg x hx
        exact ⟨k, by simp [hk], h2⟩

theorem evar_and {fs : List (Fm α)} {x : α} : (∃ f ∈ fs, EVar enc f x) → EVar enc (.and fs) x := by
  rintro ⟨f, hf, h | ⟨g, hg, h⟩⟩
  · exact .inl (by simp only [Fm.vars_and, List.mem_flatMap]; exact ⟨f, hf, h⟩)
  · exact .inr ⟨g, by simp only [pbs_and, List.mem_flatMap]; exact ⟨f, hf, hg⟩, h⟩
theorem evar_or {fs : List (Fm α)} {x : α} : (∃ f ∈ fs, EVar enc f x) → EVar enc (.or fs) x := by
  rintro ⟨f, hf, h | ⟨g, hg, h⟩⟩
  · exact .inl (by simp only [Fm.vars_or, List.mem_flatMap]; exact ⟨f, hf, h⟩)
  · exact .inr ⟨g, by simp only [pbs_or, List.mem_flatMap]; exact ⟨f, hf, hg⟩, h⟩

theorem factBody_varsE {P : Fm α → Prop} (f : Fm α)
    (ho : CoreC f ∨ Within P f ∧ ∀ f' s, Within P f' → CVarsE enc s.cache → RVE enc f' (onNNF (nnf cons enc f' true) s)) :
    ∀ s, CVarsE enc s.cache → RVE enc f (factBody cons d h enc onNNF f s) := by
  have neg : ∀ f : Fm α, (CoreC f ∨ Within P f ∧ ∀ f' s, Within P f' → CVarsE enc s.cache → RVE enc f' (onNNF (nnf cons enc f' true) s)) → ¬CoreC f →
      ∀ s, CVarsE enc s.cache → RVE enc f (onNNF (nnf cons enc f true) s) := fun f ho hn s hs => (ho.resolve_left hn).2 f s (ho.resolve_left hn).1 hs
  induction f using Fm.ind with
  | hf => intro s hs; rw [factBody]; exact ⟨hs, fun _ h => .inl h⟩
  | ht => intro s hs; rw [factBody]; exact ⟨hs, fun _ h => .inl h⟩
  | hl l => intro s hs; rw [factBody]; exact ⟨hs, fun _ h => .inl h⟩
  | hn f ih => intro s hs; rw [factBody]; exact cached_varsE hs (neg _ ho (by simp [CoreC, core]) s hs)
  | hi f g h1 h2 => intro s hs; rw [factBody]; exact cached_varsE hs (neg _ ho (by simp [CoreC, core]) s hs)
  | he f g h1 h2 => intro s hs; rw [factBody]; exact cached_varsE hs (neg _ ho (by simp [CoreC, core]) s hs)
  | hc c k xs =>
    intro s hs; rw [factBody]
    refine cached_varsE hs ?_
    split
    · exact ⟨hs, nnf_vinE _ _⟩
    · exact neg _ ho (by simp [CoreC, core]) s hs
  | hp c k ts =>
    intro s hs; rw [factBody]
    refine cached_varsE hs ?_
    split
    · exact ⟨hs, nnf_vinE _ _⟩
    · exact neg _ ho (by simp [CoreC, core]) s hs
  | ha fs ih =>
    intro s hs; rw [factBody]
    refine cached_varsE hs ?_
    have ops := factOps_varsE (cons := cons) (d := d) (h := h) (enc := enc) (onNNF := onNNF) fs s (fun f hf => ih f hf
      (ho.imp (fun hc => by
        simp only [CoreC, reduceCtorEq, false_or, core_and, Bool.and_eq_true, List.all_eq_true] at hc
        exact .inr (.inr (hc.2 f hf))) (fun h => ⟨fun g hg => h.1 g (by simp only [pbs_and, List.mem_flatMap]; exact ⟨f, hf, hg⟩), h.2⟩))) hs
    generalize factOps cons d h enc onNNF fs s = r at ops
    have ops2 : ∀ g ∈ r.1.1, VIn (EVar enc (.and fs)) g := fun g hg x hx => evar_and (ops.2 g hg x hx)
    simp only
    split
    · exact ⟨ops.1, by simp [VIn]⟩
    split
    · exact ⟨ops.1, VIn.tAnd ops2⟩
    split
    · exact ⟨ops.1, by simp [VIn]⟩
    · rename_i g gs e'
      refine ⟨by rw [distAll_cacheEq]; exact ops.1, ?_⟩
      exact distAll_vin _ _ _ _ _ _ (by rw [← e']; exact ops2)
  | ho fs ih =>
    intro s hs; rw [factBody]
    refine cached_varsE hs ?_
    have ops := factOps_varsE (cons := cons) (d := d) (h := h) (enc := enc) (onNNF := onNNF) fs s (fun f hf => ih f hf
      (ho.imp (fun hc => by
        simp only [CoreC, reduceCtorEq, false_or, core_or, Bool.and_eq_true, List.all_eq_true] at hc
        exact .inr (.inr (hc.2 f hf))) (fun h => ⟨fun g hg => h.1 g (by simp only [pbs_or, List.mem_flatMap]; exact ⟨f, hf, hg⟩), h.2⟩))) hs
    generalize factOps cons d h enc onNNF fs s = r at ops
    have ops2 : ∀ g ∈ r.1.1, VIn (EVar enc (.or fs)) g := fun g hg x hx => evar_or (ops.2 g hg x hx)
    simp only
    split
    · exact ⟨ops.1, by simp [VIn]⟩
    split
    · split
      · exact ⟨ops.1, by simp [VIn]⟩
      · rename_i g gs e'
        refine ⟨by rw [distAll_cacheEq]; exact ops.1, ?_⟩
        exact distAll_vin _ _ _ _ _ _ (by rw [← e']; exact ops2)
    · exact ⟨ops.1, VIn.tOr ops2⟩

theorem factRec_varsE {P : Fm α → Prop} (hE : EncGood cons P enc) (f : Fm α) (hf : Within P f) (s : FS σ α) (hs : CVarsE enc s.cache) :
    RVE enc f (factRec cons d h enc f s) := by
  refine factBody_varsE (P := P) f (.inr ⟨hf, fun f' s hf' hs => ?_⟩) s hs
  have hc := (nnf_cndE hE hf' true).coreC
  have := factBody_varsE (P := P) (cons := cons) (d := d) (h := h) (enc := enc) (onNNF := fun f s => ((f, true), s)) (nnf cons enc f' true) (.inl hc) s hs
  exact ⟨this.1, fun x hx => nnf_vinE f' true x ((this.2 x hx).core hc)⟩
end vars

/-! ### factorization -/

/-- a cache is right: every entry is a CNF (DNF) that implies its key, and follows from it where the encodings hold -/
structure CacheE (d : Bool) (P : Fm α → Prop) (enc : Fm α → Fm α) (cache : List (Fm α × Fm α)) : Prop where
  nf : ∀ e ∈ cache, isNF d e.2 = true
  sound : ∀ e ∈ cache, ∀ w, e.2.eval w = true → e.1.eval w = true
  complete : ∀ e ∈ cache, ∀ w, Good P enc w → e.1.eval w = true → e.2.eval w = true
  vars : CVarsE enc cache

/-- `T` is a CNF for `f`: its models are models of `f`; models of `f` at which the encodings hold extend to models of `T` by a change of the
variables in `A`; variables in `X` or `A` only -/
structure CnfG (G : (α → Bool) → Prop) (X A : α → Prop) (f T : Fm α) : Prop where
  cnf : isCNF T = true
  sound : ∀ w, T.eval w = true → f.eval w = true
  extend : ∀ v, G v → f.eval v = true → ∃ w, (∀ x, ¬A x → w x = v x) ∧ T.eval w = true
  vars : ∀ x ∈ T.vars, X x ∨ A x

section fact
variable {cons d : Bool} {P : Fm α → Prop} {enc : Fm α → Fm α}

theorem cacheE_cok {cache : List (Fm α × Fm α)} (h : CacheE d P enc cache) : (∀ w, COK true w d cache) ∧ (∀ w, Good P enc w → COK false w d cache) := by
  refine ⟨fun w e he => ⟨?_, h.nf e he⟩, fun w hw e he => ⟨?_, h.nf e he⟩⟩
  · simpa [Rel] using h.sound e he w
  · simpa [Rel] using h.complete e he w hw
theorem cacheE_of {cache : List (Fm α × Fm α)} (h1 : ∀ w, COK true w d cache) (h2 : ∀ w, Good P enc w → COK false w d cache) (h3 : CVarsE enc cache) :
    CacheE d P enc cache where
  nf e he := (h1 (fun _ => true) e he).2
  sound e he w := by simpa [Rel] using (h1 w e he).1
  complete e he w hw := by simpa [Rel] using (h2 w hw e he).1
  vars := h3

theorem encOK_true (hE : EncGood cons P enc) {f : Fm α} (hf : Within P f) (w : α → Bool) : EncOK true w enc f := fun g hg hp =>
  ⟨(hE.cnd g (hf g hg hp) hp).coreC, by simpa [Rel] using hE.sound g (hf g hg hp) hp w, hE.cnf g (hf g hg hp) hp⟩
theorem encOK_false (hE : EncGood cons P enc) {f : Fm α} (hf : Within P f) {w : α → Bool} (hw : Good P enc w) : EncOK false w enc f := fun g hg hp =>
  ⟨(hE.cnd g (hf g hg hp) hp).coreC, by simpa [Rel] using hw g (hf g hg hp) hp, hE.cnf g (hf g hg hp) hp⟩

/-- factorization with any handler, formulas with constraints, CNF and DNF -/
theorem factRec_E (hE : EncGood cons P enc) (h : Hdl σ) (f : Fm α) (hf : Within P f) (s : FS σ α) (hs : CacheE d P enc s.cache) :
    CacheE d P enc (factRec cons d h enc f s).2.cache ∧ VIn (EVar enc f) (factRec cons d h enc f s).1.1 ∧
    ((factRec cons d h enc f s).1.2 = true → isNF d (factRec cons d h enc f s).1.1 = true ∧
      (∀ w, (factRec cons d h enc f s).1.1.eval w = true → f.eval w = true) ∧
      (∀ w, Good P enc w → f.eval w = true → (factRec cons d h enc f s).1.1.eval w = true)) := by
  have a := fun w => factRec_ok cons d h enc f (encOK_true hE hf w) s ((cacheE_cok hs).1 w)
  have b := fun w hw => factRec_ok cons d h enc f (encOK_false hE hf hw) s ((cacheE_cok hs).2 w hw)
  have v := factRec_varsE (d := d) (h := h) hE f hf s hs.vars
  refine ⟨cacheE_of (fun w => (a w).1) (fun w hw => (b w hw).1) v.1, v.2, fun hr => ⟨((a (fun _ => true)).2 hr).2, fun w => ?_, fun w hw => ?_⟩⟩
  · simpa [Rel] using ((a w).2 hr).1
  · simpa [Rel] using ((b w hw).2 hr).1

theorem factorize_E (hE : EncGood cons P enc) (f : Fm α) (hf : Within P f) {cache : List (Fm α × Fm α)} (hs : CacheE true P enc cache) (A : α → Prop) :
    CacheE true P enc (factorize cons true enc cache f).2 ∧ CnfG (Good P enc) (EVar enc f) A f (factorize cons true enc cache f).1 := by
  obtain ⟨a, b, r⟩ := factRec_E (d := true) hE nopHdl f hf ⟨(), cache⟩ hs
  obtain ⟨r1, r2, r3⟩ := r (factRec_nop cons true enc f cache)
  exact ⟨a, r1, r2, fun v hv h => ⟨v, fun _ _ => rfl, r3 v hv h⟩, fun x hx => .inl (b x hx)⟩
end fact

/-! ### Tseitin, Plaisted-Greenbaum and `CNF` -/

section cnf
variable {cons : Bool} {aux : Nat → α} {bot : α} {P : Fm α → Prop} {enc : Fm α → Fm α}

theorem Within.core {f : Fm α} (h : CoreC f) : Within P f := by intro g hg; rw [core_pbs f h] at hg; simp at hg

/-- a CNF of the NNF is a CNF of the formula -/
theorem CnfG.of_nnf (hE : EncGood cons P enc) {A : α → Prop} {f T : Fm α} (hf : Within P f) (h : CnfOf A (nnf cons enc f true) T) :
    CnfG (Good P enc) (EVar enc f) A f T where
  cnf := h.cnf
  sound w hw := nnf_soundE hE hf (h.sound w hw)
  extend v hv hfv := h.extend v (nnf_completeE hf hv hfv)
  vars x hx := (h.vars x hx).imp (nnf_vinE f true x) id
theorem CnfG.of_nnf' (hE : EncGood cons P enc) {A : α → Prop} {f T : Fm α} (hf : Within P f)
    (h : CnfG (Good P enc) (EVar enc (nnf cons enc f true)) A (nnf cons enc f true) T) : CnfG (Good P enc) (EVar enc f) A f T where
  cnf := h.cnf
  sound w hw := nnf_soundE hE hf (h.sound w hw)
  extend v hv hfv := h.extend v hv (nnf_completeE hf hv hfv)
  vars x hx := (h.vars x hx).imp (fun h => nnf_vinE f true x (h.core (nnf_cndE hE hf true).coreC)) id

theorem nnf_cmpdE (hE : EncGood cons P enc) {f : Fm α} (hf : Within P f) (hn : isCNF (nnf cons enc f true) = false) :
    Cnd cons (nnf cons enc f true) ∧ cmpd (nnf cons enc f true) = true := by
  rcases nnf_cndE hE hf true with e | e | e
  · rw [e] at hn; simp [isCNF] at hn
  · rw [e] at hn; simp [isCNF] at hn
  · refine ⟨e, ?_⟩
    generalize nnf cons enc f true = g at e hn
    cases e with
    | lit l => simp [isCNF, isClause] at hn
    | and => rfl
    | or => rfl

/-- auxiliary variables of the transformation occur neither in the formula nor in encodings of its constraints -/
def FreshE (aux : Nat → α) (enc : Fm α → Fm α) (k : Nat) (f : Fm α) : Prop := ∀ n, k ≤ n → ¬EVar enc f (aux n)

theorem FreshE.nnf {k : Nat} {f : Fm α} (h : FreshE aux enc k f) : Fresh aux k (nnf cons enc f true) := fun x hx n hn e =>
  h n hn (e ▸ nnf_vinE f true x hx)

theorem pg_E (haux : ∀ m n, aux m = aux n → m = n) (hE : EncGood cons P enc) (k0 : Nat) (boundary : Int) (f : Fm α) (hf : Within P f)
    (hfr : FreshE aux enc k0 f) {cache : List (Fm α × Fm α)} (h1 : CacheE true P enc cache) :
    let r := pgCNF cons aux bot enc boundary f cache (.new k0)
    k0 ≤ r.2.2.cnt ∧ CacheE true P enc r.2.1 ∧ CnfG (Good P enc) (EVar enc f) (Own aux k0 r.2.2.cnt) f r.1 := by
  simp only [pgCNF]
  split
  · rename_i h
    exact ⟨Nat.le_refl _, h1, .of_nnf hE hf (cnfOf_equiv h (fun _ => rfl) fun _ h => h).1⟩
  rename_i hn
  simp only [Bool.not_eq_true] at hn
  obtain ⟨hcnd, hcm⟩ := nnf_cmpdE hE hf hn
  split
  · have := factorize_E hE (nnf cons enc f true) (.core (.inr (.inr hcnd.core))) h1 (Own aux k0 k0)
    exact ⟨Nat.le_refl _, this.1, .of_nnf' hE hf this.2⟩
  · obtain ⟨a1, a2, a3⟩ := transformation_ok (bot := bot) haux (nnf cons enc f true) hcnd (.new k0) (pInv_new cons aux k0)
    exact ⟨a2.cnt, h1, .of_nnf hE hf (trans_cnfOf a1 ⟨hcnd, hcm⟩ hfr.nnf a3)⟩

theorem tseitin_E (haux : ∀ m n, aux m = aux n → m = n) (hE : EncGood cons P enc) (k0 : Nat) (boundary : Int) (f : Fm α) (hf : Within P f)
    (hfr : FreshE aux enc k0 f) {cache : List (Fm α × Fm α)} (h1 : CacheE true P enc cache) :
    let r := tseitinCNF cons aux bot enc boundary f cache (.new k0)
    k0 ≤ r.2.2.cnt ∧ CacheE true P enc r.2.1 ∧ CnfG (Good P enc) (EVar enc f) (Own aux k0 r.2.2.cnt) f r.1 := by
  simp only [tseitinCNF]
  split
  · rename_i h
    exact ⟨Nat.le_refl _, h1, .of_nnf hE hf (cnfOf_equiv h (fun _ => rfl) fun _ h => h).1⟩
  rename_i hn
  simp only [Bool.not_eq_true] at hn
  obtain ⟨hcnd, hcm⟩ := nnf_cmpdE hE hf hn
  split
  · rename_i t ht; simp [TS.new] at ht
  split
  · have := factorize_E hE (nnf cons enc f true) (.core (.inr (.inr hcnd.core))) h1 (Own aux k0 k0)
    exact ⟨Nat.le_refl _, this.1, .of_nnf' hE hf this.2⟩
  · have hbu := subNodes_bu (nnf cons enc f true) hcnd.core
    have hall := subNodes_all (P := fun g => Cnd cons g ∧ Fresh aux k0 g)
      (fun fs h g hg => ⟨h.1.and_inv.1 g hg, VIn.and_iff.1 h.2 g hg⟩) (fun fs h g hg => ⟨h.1.or_inv.1 g hg, VIn.or_iff.1 h.2 g hg⟩)
      (nnf cons enc f true) hcnd.core ⟨hcnd, hfr.nnf⟩
    have hl := loop_ok (bot := bot) haux (tInv_new cons aux k0) hbu.1 hall
    obtain ⟨t, ht⟩ := Option.isSome_iff_exists.1 (hl.2.2 _ hbu.2)
    refine ⟨hl.2.1.cnt, h1, .of_nnf hE hf ?_⟩
    rw [ht, Option.getD_some]
    exact (entry_cnfOf hl.1 hcm ht).1

theorem single_E (haux : ∀ m n, aux m = aux n → m = n) (hE : EncGood cons P enc) (cfg : Cfg) (f : Fm α) (hf : Within P f) (c : CS α)
    (hfr : FreshE aux enc c.cnt f) (hc : CacheE true P enc c.cache) :
    c.cnt ≤ (single cons aux bot enc cfg f c).2.cnt ∧ CacheE true P enc (single cons aux bot enc cfg f c).2.cache ∧
    CnfG (Good P enc) (EVar enc f) (Own aux c.cnt (single cons aux bot enc cfg f c).2.cnt) f (single cons aux bot enc cfg f c).1 := by
  have h1 : CacheE true P enc (factorizeWithHandler cons true (boundHdl cfg.distBound cfg.clauseBound) enc f ⟨c.bh, c.cache⟩).2.cache ∧
      ((factorizeWithHandler cons true (boundHdl cfg.distBound cfg.clauseBound) enc f ⟨c.bh, c.cache⟩).1.2 = true → ∀ A,
        CnfG (Good P enc) (EVar enc f) A f (factorizeWithHandler cons true (boundHdl cfg.distBound cfg.clauseBound) enc f ⟨c.bh, c.cache⟩).1.1) := by
    unfold factorizeWithHandler
    simp only
    split
    · exact ⟨hc, by simp⟩
    · obtain ⟨a, b, r⟩ := factRec_E (d := true) hE (boundHdl cfg.distBound cfg.clauseBound) f hf
        (ask (boundHdl cfg.distBound cfg.clauseBound) .started ⟨c.bh, c.cache⟩).2 hc
      refine ⟨a, fun hr A => ?_⟩
      obtain ⟨r1, r2, r3⟩ := r hr
      exact ⟨r1, r2, fun v hv h => ⟨v, fun _ _ => rfl, r3 v hv h⟩, fun x hx => .inl (b x hx)⟩
  unfold single
  generalize factorizeWithHandler cons true (boundHdl cfg.distBound cfg.clauseBound) enc f ⟨c.bh, c.cache⟩ = r at h1
  simp only
  split
  · rename_i hr; exact ⟨Nat.le_refl _, h1.1, h1.2 hr _⟩
  · split
    · exact pg_E haux hE c.cnt cfg.atomBound f hf hfr h1.1
    · exact tseitin_E haux hE c.cnt cfg.atomBound f hf hfr h1.1

/-- list form of `CnfG` -/
structure CnfGL (G : (α → Bool) → Prop) (X A : α → Prop) (fs Ts : List (Fm α)) : Prop where
  cnf : ∀ T ∈ Ts, isCNF T = true
  sound : ∀ w, Ts.all (Fm.eval w) = true → fs.all (Fm.eval w) = true
  extend : ∀ v, G v → fs.all (Fm.eval v) = true → ∃ w, (∀ x, ¬A x → w x = v x) ∧ Ts.all (Fm.eval w) = true
  vars : ∀ T ∈ Ts, ∀ x ∈ T.vars, X x ∨ A x

theorem cnfGL_cons (haux : ∀ m n, aux m = aux n → m = n) {G : (α → Bool) → Prop} {X : α → Prop} {k k1 k2 : Nat} (h1 : k ≤ k1) (h2 : k1 ≤ k2)
    {f T : Fm α} {fs Ts : List (Fm α)} (hX : ∀ n, k ≤ n → ¬X (aux n)) (hv : ∀ g ∈ f :: fs, VIn X g)
    (hG : ∀ v w, (∀ x, (∀ n, k ≤ n → x ≠ aux n) → w x = v x) → G v → G w)
    (a : CnfG G X (Own aux k k1) f T) (b : CnfGL G X (Own aux k1 k2) fs Ts) : CnfGL G X (Own aux k k2) (f :: fs) (T :: Ts) where
  cnf := by
    intro g hg; rcases List.mem_cons.1 hg with rfl | hg
    · exact a.cnf
    · exact b.cnf g hg
  sound := by
    intro w hw
    rw [List.all_cons, Bool.and_eq_true] at hw ⊢
    exact ⟨a.sound w hw.1, b.sound w hw.2⟩
  extend := by
    intro v hg hfv
    rw [List.all_cons, Bool.and_eq_true] at hfv
    obtain ⟨w1, e1, t1⟩ := a.extend v hg hfv.1
    have : fs.all (Fm.eval w1) = true := by
      rw [← hfv.2, Bool.eq_iff_iff, List.all_eq_true, List.all_eq_true]
      exact forall₂_congr fun g hg => by
        rw [Fm.eval_congr g fun x hx => e1 x (by rintro ⟨m, m1, _, rfl⟩; exact hX m m1 (hv g (by simp [hg]) _ hx))]
    obtain ⟨w2, e2, t2⟩ := b.extend w1 (hG v w1 (fun x hx => e1 x (by rintro ⟨m, m1, _, rfl⟩; exact hx m m1 rfl)) hg) this
    refine ⟨w2, fun x hx => ?_, ?_⟩
    · rw [e2 x fun h => hx (h.mono h1 (Nat.le_refl _)), e1 x fun h => hx (h.mono (Nat.le_refl _) h2)]
    · rw [List.all_cons, t2, Bool.and_true, ← t1]
      refine Fm.eval_congr T fun x hx => e2 x ?_
      rcases a.vars x hx with h | ⟨n, _, n2, rfl⟩
      · rintro ⟨m, m1, _, rfl⟩; exact hX m (by omega) h
      · rintro ⟨m, m1, _, e⟩
        have := haux _ _ e; omega
  vars := by
    intro g hg x hx; rcases List.mem_cons.1 hg with rfl | hg
    · exact (a.vars x hx).imp id fun h => h.mono (Nat.le_refl _) h2
    · exact (b.vars g hg x hx).imp id fun h => h.mono h1 (Nat.le_refl _)

/-- auxiliary variables of the transformation occur in no constraint considered and in no encoding of one -/
def FreshP (aux : Nat → α) (P : Fm α → Prop) (enc : Fm α → Fm α) (k : Nat) : Prop :=
  ∀ g, P g → isPB g = true → ∀ n, k ≤ n → aux n ∉ g.vars ∧ aux n ∉ (enc g).vars

theorem Good.congr {k : Nat} (hP : FreshP aux P enc k) {v w : α → Bool} (e : ∀ x, (∀ n, k ≤ n → x ≠ aux n) → w x = v x) (h : Good P enc v) :
    Good P enc w := by
  intro g hg hp he
  have h1 := hP g hg hp
  rw [Fm.eval_congr g fun x hx => e x fun n hn h => (h1 n hn).1 (h ▸ hx)] at he
  rw [Fm.eval_congr (enc g) fun x hx => e x fun n hn h => (h1 n hn).2 (h ▸ hx)]
  exact h g hg hp he

theorem CnfG.mono {G : (α → Bool) → Prop} {X Y A : α → Prop} {f T : Fm α} (h : CnfG G X A f T) (hXY : ∀ x, X x → Y x) : CnfG G Y A f T :=
  ⟨h.cnf, h.sound, h.extend, fun x hx => (h.vars x hx).imp (hXY x) id⟩

theorem singleL_E (haux : ∀ m n, aux m = aux n → m = n) (hE : EncGood cons P enc) (cfg : Cfg) {X : α → Prop} : ∀ (fs : List (Fm α)) (c : CS α),
    (∀ f ∈ fs, Within P f) → (∀ f ∈ fs, ∀ x, EVar enc f x → X x) → (∀ n, c.cnt ≤ n → ¬X (aux n)) → FreshP aux P enc c.cnt → CacheE true P enc c.cache →
    c.cnt ≤ (singleL cons aux bot enc cfg fs c).2.cnt ∧ CacheE true P enc (singleL cons aux bot enc cfg fs c).2.cache ∧
    CnfGL (Good P enc) X (Own aux c.cnt (singleL cons aux bot enc cfg fs c).2.cnt) fs (singleL cons aux bot enc cfg fs c).1
  | [], c, _, _, _, _, hc => ⟨Nat.le_refl _, hc, ⟨by simp [singleL], by simp [singleL], fun v _ _ => ⟨v, by simp, by simp [singleL]⟩, by simp [singleL]⟩⟩
  | f :: fs, c, hp, hX, hf, hP, hc => by
    obtain ⟨a1, a2, a3⟩ := single_E (cons := cons) (bot := bot) (enc := enc) haux hE cfg f (hp f (by simp)) c
      (fun n hn h => hf n hn (hX f (by simp) _ h)) hc
    obtain ⟨b1, b2, b3⟩ := singleL_E haux hE cfg fs (single cons aux bot enc cfg f c).2 (fun g h => hp g (by simp [h]))
      (fun g h => hX g (by simp [h])) (fun n hn => hf n (Nat.le_trans a1 hn)) (fun g h1 h2 n hn => hP g h1 h2 n (Nat.le_trans a1 hn)) a2
    rw [singleL]
    exact ⟨Nat.le_trans a1 b1, b2, cnfGL_cons haux a1 b1 hf (fun g hg x hx => hX g hg x (.inl hx)) (fun v w e => Good.congr hP e)
      (a3.mono (hX f (by simp))) b3⟩

theorem advanced_E (haux : ∀ m n, aux m = aux n → m = n) (hE : EncGood cons P enc) (cfg : Cfg) (f : Fm α) (hp : Within P f) (c : CS α)
    (hf : FreshE aux enc c.cnt f) (hP : FreshP aux P enc c.cnt) (hc : CacheE true P enc c.cache) :
    c.cnt ≤ (advanced cons aux bot enc cfg f c).2.cnt ∧ CacheE true P enc (advanced cons aux bot enc cfg f c).2.cache ∧
    CnfG (Good P enc) (EVar enc f) (Own aux c.cnt (advanced cons aux bot enc cfg f c).2.cnt) f (advanced cons aux bot enc cfg f c).1 := by
  unfold advanced
  simp only
  split
  · rename_i fs
    obtain ⟨b1, b2, b3⟩ := singleL_E (cons := cons) (bot := bot) (enc := enc) haux hE cfg (X := EVar enc (.and fs)) fs { c with bh := ⟨false, 0, 0⟩ }
      (fun f hf g hg => hp g (by simp only [pbs_and, List.mem_flatMap]; exact ⟨f, hf, hg⟩)) (fun f hf x hx => evar_and ⟨f, hf, hx⟩) hf hP hc
    refine ⟨b1, b2, isCNF_tAnd b3.cnf, ?_, ?_, ?_⟩
    · intro w hw; rw [eval_tAnd] at hw; rw [Fm.eval_and]; exact b3.sound w hw
    · intro v hg hv; rw [Fm.eval_and] at hv
      obtain ⟨w, e, t⟩ := b3.extend v hg hv
      exact ⟨w, e, by rw [eval_tAnd]; exact t⟩
    · exact VIn.tAnd (X := fun x => EVar enc (.and fs) x ∨ Own aux c.cnt _ x) fun T hT x hx => b3.vars T hT x hx
  · exact single_E (cons := cons) (bot := bot) (enc := enc) haux hE cfg f hp { c with bh := ⟨false, 0, 0⟩ } hf hc

theorem cnf_E (haux : ∀ m n, aux m = aux n → m = n) (hE : EncGood cons P enc) (cfg : Cfg) (f : Fm α) (hp : Within P f) (c : CS α)
    (hf : FreshE aux enc c.cnt f) (hP : FreshP aux P enc c.cnt) (hc : CacheE true P enc c.cache) :
    c.cnt ≤ (cnf cons aux bot enc cfg f c).2.cnt ∧ CacheE true P enc (cnf cons aux bot enc cfg f c).2.cache ∧
    CnfG (Good P enc) (EVar enc f) (Own aux c.cnt (cnf cons aux bot enc cfg f c).2.cnt) f (cnf cons aux bot enc cfg f c).1 := by
  unfold cnf
  split
  · have := factorize_E hE f hp hc (Own aux c.cnt c.cnt)
    exact ⟨Nat.le_refl _, this⟩
  · exact pg_E haux hE c.cnt cfg.atomBound f hp hf hc
  · exact tseitin_E haux hE c.cnt cfg.atomBound f hp hf hc
  · exact advanced_E haux hE cfg f hp c hf hP hc
/-- C46 for formulas with constraints inside.  Whatever the configured algorithm, fallback algorithm and bounds, whatever the factory's caches contain, and whatever encoder
of the constraints with the following properties on the constraints `P`: encodings are CNFs of the factory which imply their constraints, and every assignment can be
changed on the auxiliary variables `A` of the encoder so that the encodings of all true constraints hold.  Then `CNF` returns a formula in conjunctive normal form
whose models, projected to the variables that are no auxiliary variables, are the models of the input. -/
theorem C46_constraints_partial (haux : ∀ m n, aux m = aux n → m = n) (hE : EncGood cons P enc) (A : α → Prop)
    (hJ : ∀ v : α → Bool, ∃ w : α → Bool, (∀ x, ¬A x → w x = v x) ∧ Good P enc w) (cfg : Cfg) (f : Fm α) (hp : Within P f) (hA : ∀ x ∈ f.vars, ¬A x) (c : CS α)
    (hf : ∀ n, c.cnt ≤ n → aux n ∉ f.vars) (hP : FreshP aux P enc c.cnt) (hc : CacheE true P enc c.cache) :
    isCNF (cnf cons aux bot enc cfg f c).1 = true ∧
    (∀ v, f.eval v = true ↔ ∃ w, (∀ x, ¬A x → (∀ n, c.cnt ≤ n → x ≠ aux n) → w x = v x) ∧ (cnf cons aux bot enc cfg f c).1.eval w = true) ∧
    (∀ x ∈ (cnf cons aux bot enc cfg f c).1.vars, x ∈ f.vars ∨ (∃ g ∈ pbs f, isPB g = true ∧ x ∈ (enc g).vars) ∨
      ∃ n, c.cnt ≤ n ∧ n < (cnf cons aux bot enc cfg f c).2.cnt ∧ x = aux n) ∧
    c.cnt ≤ (cnf cons aux bot enc cfg f c).2.cnt ∧ CacheE true P enc (cnf cons aux bot enc cfg f c).2.cache := by
  have hfr : FreshE aux enc c.cnt f := by
    rintro n hn (h | ⟨g, hg, hgp, h⟩)
    · exact hf n hn h
    · exact (hP g (hp g hg hgp) hgp n hn).2 h
  obtain ⟨a, b, d⟩ := cnf_E (bot := bot) haux hE cfg f hp c hfr hP hc
  refine ⟨d.cnf, fun v => ⟨fun hv => ?_, fun ⟨w, e, t⟩ => ?_⟩, fun x hx => ?_, a, b⟩
  · obtain ⟨v', e', g'⟩ := hJ v
    have : f.eval v' = true := by rw [← hv]; exact Fm.eval_congr f fun x hx => e' x (hA x hx)
    obtain ⟨w, e, t⟩ := d.extend v' g' this
    exact ⟨w, fun x h1 h2 => (e x fun ⟨n, n1, _, h⟩ => h2 n n1 h).trans (e' x h1), t⟩
  · rw [← d.sound w t]
    exact Fm.eval_congr f fun x hx => (e x (hA x hx) fun n hn h => hf n hn (h ▸ hx)).symm
  · rcases d.vars x hx with (h | h) | h
    · exact .inl h
    · exact .inr (.inl h)
    · exact .inr (.inr h)
end cnf

end Verif.NF
