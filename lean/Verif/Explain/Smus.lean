import Verif.Explain.SmusModel
import Verif.Explain.Mus
import Verif.Opt.Props
import Mathlib.Data.List.Basic
import Mathlib.Data.List.Perm.Subperm
import Mathlib.Data.List.Sublists
import Mathlib.Data.List.Nodup
/-!
# C29: the SMUS is unsatisfiable and of minimum size
-/
namespace Verif.Explain
open Verif Verif.Tree Verif.Opt
variable {α : Type} [DecidableEq α]

/-! ## specification -/

/-- the generated selectors (of the propositions and of the optimization) are new variables -/
structure SelFresh (psel osel : Nat → α) (additional : List (Fm α)) (ps : List (Prp α)) : Prop where
  pinj : ∀ i j, psel i = psel j → i = j
  oinj : ∀ i j, osel i = osel j → i = j
  ne : ∀ i j, psel i ≠ osel j
  additional : ∀ f ∈ additional, ∀ i, psel i ∉ f.vars ∧ osel i ∉ f.vars
  props : ∀ p ∈ ps, ∀ i, psel i ∉ p.fm.vars ∧ osel i ∉ p.fm.vars

/-- unsatisfiable together with the additional constraints -/
def Unsat (additional : List (Fm α)) (ps : List (Prp α)) : Prop := ¬ SatL (additional ++ ps.map (·.fm))

/-- a smallest unsatisfiable subset modulo the additional constraints -/
def IsSmus (additional : List (Fm α)) (ps r : List (Prp α)) : Prop :=
  r.Subperm ps ∧ Unsat additional r ∧ ∀ u, u.Sublist ps → Unsat additional u → r.length ≤ u.length

/-! ## lemmas -/

theorem mem_posVars (ls : List (Lit α)) (x : α) : x ∈ posVars ls ↔ ⟨x, true⟩ ∈ ls := by
  simp only [posVars, List.mem_map, List.mem_filter]
  constructor
  · rintro ⟨l, ⟨h1, h2⟩, rfl⟩
    cases l
    simp_all
  · intro h
    exact ⟨_, ⟨h, rfl⟩, rfl⟩

theorem mem_result {ord : List α → List α} (ho : ∀ l, (ord l).Perm l) (fs : List (Fm α)) (xs : List α) (v : α → Bool) (x : α) :
    x ∈ posVars (resultModel ord fs (posLits xs) [] v) ↔ x ∈ xs ∧ (∃ f ∈ fs, x ∈ f.vars) ∧ v x = true := by
  rw [mem_posVars, C48_result_model ord ho]
  simp [posLits, Lit.eval]

theorem nodup_result {ord : List α → List α} (ho : ∀ l, (ord l).Perm l) (fs : List (Fm α)) (xs : List α) (v : α → Bool) :
    (posVars (resultModel ord fs (posLits xs) [] v)).Nodup := by
  have h1 : (ord ((posLits xs).map (·.var)).eraseDups).Nodup := (ho _).nodup_iff.2 (by
    have : ∀ (n : Nat) (l : List α), l.length ≤ n → l.eraseDups.Nodup := by
      intro n
      induction n with
      | zero => intro l h; rw [List.eq_nil_of_length_eq_zero (Nat.le_zero.1 h)]; simp
      | succ n ih =>
        intro l h
        cases l with
        | nil => simp
        | cons a l =>
          rw [List.eraseDups_cons, List.nodup_cons]
          refine ⟨by simp, ih _ ?_⟩
          have := List.length_filter_le (fun b => !b == a) l
          simp at h
          omega
    exact this _ _ (Nat.le_refl _))
  have : posVars (resultModel ord fs (posLits xs) [] v) =
      ((ord ((posLits xs).map (·.var)).eraseDups).filter (known fs)).filter v := by
    simp only [posVars, resultModel, List.nil_append]
    generalize (ord ((posLits xs).map (·.var)).eraseDups).filter (known fs) = l
    induction l with
    | nil => rfl
    | cons a l ih =>
      simp only [List.map_cons, List.filter_cons]
      cases v a <;> simp [ih]
  rw [this]
  exact (h1.filter _).filter _

theorem numTrue_posLits (v : α → Bool) (xs : List α) : numTrue v (posLits xs) = (xs.filter v).length := by
  simp only [numTrue, posLits]
  induction xs with
  | nil => rfl
  | cons x xs ih =>
    simp only [List.map_cons, List.filter_cons, Lit.eval, if_true] at ih ⊢
    split <;> simp [ih]

/-- the clause for the hitting-set solver -/
def hsClause (cons : Bool) (c : List α) : Fm α := tOr cons (c.map fun x => .lit ⟨x, true⟩)

theorem hsClause_eval (cons : Bool) (c : List α) (v : α → Bool) : (hsClause cons c).eval v = true ↔ ∃ x ∈ c, v x = true := by
  simp [hsClause, Lit.eval]

theorem hsClause_vars (cons : Bool) (c : List α) (x : α) (h : x ∈ (hsClause cons c).vars) : x ∈ c := by
  obtain ⟨f, hf, hx⟩ := vars_tOr cons _ x h
  obtain ⟨y, hy, rfl⟩ := List.mem_map.1 hf
  simp at hx
  exact hx ▸ hy

/-- a model of a clause makes a variable true that occurs in it -/
theorem hsClause_hit {cons : Bool} {c : List α} {v : α → Bool} (h : (hsClause cons c).eval v = true) :
    ∃ x ∈ c, x ∈ (hsClause cons c).vars ∧ v x = true := by
  have h1 : (hsClause cons c).eval (fun x => decide (x ∈ (hsClause cons c).vars) && v x) = true := by
    rw [← h]
    exact Fm.eval_congr _ fun x hx => by simp [hx]
  obtain ⟨x, hx, hx2⟩ := (hsClause_eval cons c _).1 h1
  simp at hx2
  exact ⟨x, hx, hx2⟩

theorem growContent_eval (cons : Bool) (psel : Nat → α) (additional : List (Fm α)) (ps : List (Prp α)) (v : α → Bool) :
    Holds v (growContent cons psel additional ps) ↔ Holds v additional ∧ ∀ (i : Nat) p, ps[i]? = some p → v (psel i) = p.fm.eval v := by
  rw [growContent, holds_append]
  refine and_congr_right fun _ => ?_
  simp only [Holds, List.mem_map]
  constructor
  · intro h i p hp
    have := h _ ⟨(p, i), by rw [List.mem_zipIdx_iff_getElem?]; simpa using hp, rfl⟩
    simpa [Lit.eval] using this
  · rintro h f ⟨⟨p, i⟩, hpi, rfl⟩
    rw [List.mem_zipIdx_iff_getElem?] at hpi
    have := h i p (by simpa using hpi)
    simpa [Lit.eval] using this

theorem growContent_known {cons : Bool} {psel osel : Nat → α} {additional : List (Fm α)} {ps : List (Prp α)} (hf : SelFresh psel osel additional ps)
    {i : Nat} (hi : i < ps.length) : ∃ f ∈ growContent cons psel additional ps, psel i ∈ f.vars := by
  refine ⟨tEquiv cons (.lit ⟨psel i, true⟩) ps[i].fm, ?_, ?_⟩
  · rw [growContent]
    refine List.mem_append_right _ (List.mem_map.2 ⟨(ps[i], i), ?_, rfl⟩)
    rw [List.mem_zipIdx_iff_getElem?]
    simp [hi]
  · by_contra hx
    have h1 : ∀ b : Bool, (tEquiv cons (.lit ⟨psel i, true⟩) ps[i].fm).eval (fun x => if x = psel i then b else false) =
        (tEquiv cons (.lit ⟨psel i, true⟩) ps[i].fm).eval (fun _ => false) := fun b => Fm.eval_congr _ fun x hx2 => by
      rw [if_neg]; rintro rfl; exact hx hx2
    have h2 : ∀ b : Bool, ps[i].fm.eval (fun x => if x = psel i then b else false) = ps[i].fm.eval (fun _ => false) := fun b =>
      Fm.eval_congr _ fun x hx2 => by
        rw [if_neg]; rintro rfl; exact (hf.props _ (List.getElem_mem _) i).1 hx2
    have h3 := (h1 true).trans (h1 false).symm
    simp only [eval_tEquiv, h2, Fm.eval_lit, Lit.eval, if_true] at h3
    revert h3
    cases ps[i].fm.eval fun _ => false <;> simp

theorem mem_assumptions {psel : Nat → α} {ps : List (Prp α)} {x : α} : x ∈ assumptions psel ps ↔ ∃ i, i < ps.length ∧ psel i = x := by
  simp [assumptions]

theorem nodup_assumptions {psel : Nat → α} (hinj : ∀ i j, psel i = psel j → i = j) (ps : List (Prp α)) : (assumptions psel ps).Nodup :=
  List.Nodup.map (fun i j h => hinj i j h) List.nodup_range

/-- a correction set: the selectors that a model of the grow solver leaves false -/
def Correction (cons : Bool) (psel : Nat → α) (additional : List (Fm α)) (ps : List (Prp α)) (c : List α) : Prop :=
  ∃ w, Holds w (growContent cons psel additional ps) ∧ ∀ x, x ∈ c ↔ x ∈ assumptions psel ps ∧ w x = false

theorem lookup_sel {psel : Nat → α} (hinj : ∀ i j, psel i = psel j → i = j) {ps : List (Prp α)} {i : Nat} {p : Prp α} (h : ps[i]? = some p) :
    lookup psel ps (psel i) = some p := by
  have h1 : ps.zipIdx.find? (fun pi => decide (psel pi.2 = psel i)) = some (p, i) := by
    cases hx : ps.zipIdx.find? (fun pi => decide (psel pi.2 = psel i)) with
    | none =>
      rw [List.find?_eq_none] at hx
      exact absurd (hx (p, i) (by rw [List.mem_zipIdx_iff_getElem?]; simpa using h)) (by simp)
    | some r =>
      obtain ⟨q, j⟩ := r
      have h2 := List.find?_some hx
      have h3 := List.mem_of_find?_eq_some hx
      simp at h2
      have := hinj _ _ h2
      subst this
      rw [List.mem_zipIdx_iff_getElem?] at h3
      simp at h3
      rw [h] at h3
      cases h3
      rfl
  simp only [lookup, h1, Option.map_some]

theorem mapM_lookup {psel : Nat → α} (hinj : ∀ i j, psel i = psel j → i = j) (ps : List (Prp α)) : ∀ (J : List Nat), (∀ i ∈ J, i < ps.length) →
    (J.map psel).mapM (lookup psel ps) = some (J.filterMap fun i => ps[i]?)
  | [], _ => rfl
  | i :: J, h => by
    have hi := h i List.mem_cons_self
    have ih := mapM_lookup hinj ps J fun j hj => h j (List.mem_cons_of_mem _ hj)
    rw [List.map_cons, List.mapM_cons, lookup_sel hinj (List.getElem?_eq_getElem hi), ih]
    simp [hi]

theorem countP_lt {l : List (List α)} {p q : List α → Bool} (x : List α) (hx : x ∈ l) (hp : p x = true) (hq : q x = false) :
    l.countP (fun s => p s && q s) < l.countP p := by
  induction l with
  | nil => cases hx
  | cons y l ih =>
    have hle : l.countP (fun s => p s && q s) ≤ l.countP p := List.countP_mono_left fun a _ h => by simp at h; exact h.1
    simp only [List.countP_cons]
    rcases List.mem_cons.1 hx with rfl | h
    · simp [hp, hq]; omega
    · have := ih h
      cases p y <;> cases q y <;> simp <;> omega

/-- a list of selectors that hits all clauses -/
def hits (cs : List (List α)) (s : List α) : Bool := cs.all fun c => c.any fun x => decide (x ∈ s)

theorem filterMap_subperm (ps : List (Prp α)) (J : List Nat) (hJ : J.Nodup) : (J.filterMap fun i => ps[i]?).Subperm ps := by
  have h1 : (J.filter fun i => decide (i < ps.length)).Subperm (List.range ps.length) :=
    List.subperm_of_subset (hJ.filter _) fun i hi => by simpa using (List.mem_filter.1 hi).2
  have h2 : J.filterMap (fun i => ps[i]?) = (J.filter fun i => decide (i < ps.length)).filterMap fun i => ps[i]? := by
    rw [List.filterMap_filter]
    refine List.filterMap_congr fun i _ => ?_
    by_cases hi : i < ps.length <;> simp [hi]
  have h3 : (List.range ps.length).filterMap (fun i => ps[i]?) = ps := by
    have : ∀ (n : Nat), n ≤ ps.length → (List.range n).filterMap (fun i => ps[i]?) = ps.take n := by
      intro n
      induction n with
      | zero => simp
      | succ n ih =>
        intro hn
        rw [List.range_succ, List.filterMap_append, ih (by omega), List.take_add_one]
        congr 1
    rw [this _ (Nat.le_refl _), List.take_length]
  rw [h2]
  obtain ⟨l, hl1, hl2⟩ := h1
  have := hl2.filterMap fun i => ps[i]?
  rw [h3] at this
  exact ⟨_, hl1.filterMap _, this⟩

/-- the ways the computation may end -/
def SmusResult (additional : List (Fm α)) (ps : List (Prp α)) : Res (Option (List (Prp α))) → Prop
  | .ok (some r) => IsSmus additional ps r
  | .ok none => ¬ Unsat additional ps
  | .canceled => True
  | .error => False
  | .panic => False
  | .fuel => False

theorem smusLoop_spec {cons : Bool} {psel osel : Nat → α} {ord : List α → List α} (ho : ∀ l, (ord l).Perm l) {envH envG : Nat → OptEnv α}
    (hH : ∀ r, (envH r).call.Ok) (hG : ∀ r, (envG r).call.Ok) {additional : List (Fm α)} {ps : List (Prp α)} (hf : SelFresh psel osel additional ps)
    (hun : Unsat additional ps) : ∀ (k r : Nat) (cs : List (List α)),
      (∀ c ∈ cs, Correction cons psel additional ps c) → (assumptions psel ps).sublists.countP (hits cs) < k →
      SmusResult additional ps
        (smusLoop cons psel osel ord envH envG ps (growContent cons psel additional ps) k r (cs.map (hsClause cons)))
  | 0, _, _, _, h => absurd h (by omega)
  | k + 1, r, cs, hcs, hk => by
    have hA : ∀ x ∈ assumptions psel ps, ∃ i, i < ps.length ∧ psel i = x := fun x hx => mem_assumptions.1 hx
    have hfresh1 : Fresh osel (cs.map (hsClause cons)) (posLits (assumptions psel ps)) := by
      refine ⟨hf.oinj, ?_, ?_⟩
      · intro f hfm i hx
        obtain ⟨c, hc, rfl⟩ := List.mem_map.1 hfm
        obtain ⟨w, _, hw⟩ := hcs c hc
        obtain ⟨j, _, hj⟩ := hA _ ((hw _).1 (hsClause_vars cons c _ hx)).1
        exact hf.ne j i hj
      · intro l hl i
        obtain ⟨x, hx, rfl⟩ := List.mem_map.1 hl
        obtain ⟨j, _, rfl⟩ := hA x hx
        exact hf.ne j i
    rw [smusLoop]
    have hm := C48_optimum (hH r) (envH r).resume (envH r).start hfresh1 0 false
    revert hm
    cases maximize (envH r).call (envH r).resume (envH r).start osel 0 false (cs.map (hsClause cons)) (posLits (assumptions psel ps)) with
    | fuel => exact id
    | canceled m => intro _; trivial
    | done m =>
      cases m with
      | none =>
        -- all selectors true is a model
        intro h
        refine h ⟨fun _ => true, fun f hfm => ?_⟩
        obtain ⟨c, hc, rfl⟩ := List.mem_map.1 hfm
        rw [hsClause_eval]
        obtain ⟨w, hw1, hw2⟩ := hcs c hc
        -- a correction set is not empty
        by_contra hne
        push_neg at hne
        have hall : ∀ i, i < ps.length → w (psel i) = true := by
          intro i hi
          by_contra hx
          exact hne (psel i) ((hw2 _).2 ⟨mem_assumptions.2 ⟨i, hi, rfl⟩, by simpa using hx⟩) rfl
        rw [growContent_eval] at hw1
        refine hun ⟨w, fun g hg => ?_⟩
        rcases List.mem_append.1 hg with hg | hg
        · exact hw1.1 g hg
        · obtain ⟨p, hp, rfl⟩ := List.mem_map.1 hg
          obtain ⟨i, hi, rfl⟩ := List.getElem_of_mem hp
          rw [← hw1.2 i _ (List.getElem?_eq_getElem hi)]
          exact hall i hi
      | some v =>
        rintro ⟨hv, hopt⟩
        dsimp only
        generalize hh : posVars (resultModel ord (cs.map (hsClause cons)) (posLits (assumptions psel ps)) [] v) = h
        have hmem : ∀ x, x ∈ h ↔ x ∈ assumptions psel ps ∧ (∃ f ∈ cs.map (hsClause cons), x ∈ f.vars) ∧ v x = true := by
          intro x; rw [← hh]; exact mem_result ho _ _ _ _
        have hnd : h.Nodup := by rw [← hh]; exact nodup_result ho _ _ _
        -- size of `h`
        have hsize : ∀ u, u.Sublist ps → Unsat additional u → h.length ≤ u.length := by
          intro u hu hun'
          have h1 : ps = ps.zipIdx.map (·.1) := by simp [List.zipIdx_map_fst]
          rw [h1, List.sublist_map_iff] at hu
          obtain ⟨L, hL, rfl⟩ := hu
          let wU : α → Bool := fun x => decide (x ∈ L.map fun pi => psel pi.2)
          have hLget : ∀ pi ∈ L, ps[pi.2]? = some pi.1 := by
            intro pi hpi
            have := hL.subset hpi
            rw [List.mem_zipIdx_iff_getElem?] at this
            simpa using this
          have hwU : Holds wU (cs.map (hsClause cons)) := by
            intro f hfm
            obtain ⟨c, hc, rfl⟩ := List.mem_map.1 hfm
            rw [hsClause_eval]
            obtain ⟨w, hw1, hw2⟩ := hcs c hc
            by_contra hne
            push_neg at hne
            rw [growContent_eval] at hw1
            refine hun' ⟨w, fun g hg => ?_⟩
            rcases List.mem_append.1 hg with hg | hg
            · exact hw1.1 g hg
            · simp only [List.map_map, List.mem_map, Function.comp] at hg
              obtain ⟨pi, hpi, rfl⟩ := hg
              have hget := hLget pi hpi
              rw [← hw1.2 pi.2 _ hget]
              by_contra hx
              refine hne (psel pi.2) ((hw2 _).2 ⟨mem_assumptions.2 ⟨pi.2, ?_, rfl⟩, by simpa using hx⟩) ?_
              · exact (List.getElem?_eq_some_iff.1 hget).1
              · simp only [wU, decide_eq_true_eq]
                exact List.mem_map.2 ⟨pi, hpi, rfl⟩
          have h2 := hopt wU hwU
          simp only [Bool.false_eq_true, if_false, numTrue_posLits] at h2
          have h3 : h.length ≤ ((assumptions psel ps).filter v).length :=
            (List.subperm_of_subset hnd fun x hx => List.mem_filter.2 ⟨((hmem x).1 hx).1, ((hmem x).1 hx).2.2⟩).length_le
          have h4 : ((assumptions psel ps).filter wU).length ≤ (L.map fun pi => psel pi.2).length :=
            (List.subperm_of_subset ((nodup_assumptions hf.pinj ps).filter _) fun x hx => by
              have := (List.mem_filter.1 hx).2
              simpa only [wU, decide_eq_true_eq] using this).length_le
          simp at h4 ⊢
          omega
        -- `h` as indices
        obtain ⟨J, hJ1, hJ2⟩ : ∃ J : List Nat, h = J.map psel ∧ ∀ i ∈ J, i < ps.length := by
          have : ∀ l : List α, (∀ x ∈ l, x ∈ assumptions psel ps) → ∃ J : List Nat, l = J.map psel ∧ ∀ i ∈ J, i < ps.length := by
            intro l
            induction l with
            | nil => intro _; exact ⟨[], rfl, by simp⟩
            | cons x l ih =>
              intro hl
              obtain ⟨J, h1, h2⟩ := ih fun y hy => hl y (List.mem_cons_of_mem _ hy)
              obtain ⟨i, hi, rfl⟩ := mem_assumptions.1 (hl x List.mem_cons_self)
              exact ⟨i :: J, by simp [h1], by simp [hi]; exact h2⟩
          exact this h fun x hx => ((hmem x).1 hx).1
        have hfresh2 : Fresh osel (growContent cons psel additional ps ++ h.map fun x => .lit ⟨x, true⟩) (posLits (assumptions psel ps)) := by
          refine ⟨hf.oinj, ?_, hfresh1.lits⟩
          intro f hfm i hx
          rcases List.mem_append.1 hfm with hfm | hfm
          · rw [growContent] at hfm
            rcases List.mem_append.1 hfm with hfm | hfm
            · exact (hf.additional f hfm i).2 hx
            · obtain ⟨⟨p, j⟩, hpj, rfl⟩ := List.mem_map.1 hfm
              rcases vars_tEquiv cons _ _ _ hx with h1 | h1
              · simp at h1
                exact hf.ne j i h1.symm
              · rw [List.mem_zipIdx_iff_getElem?] at hpj
                exact (hf.props p (List.mem_of_getElem? (by simpa using hpj)) i).2 h1
          · obtain ⟨y, hy, rfl⟩ := List.mem_map.1 hfm
            simp at hx
            obtain ⟨j, _, hj⟩ := hA y ((hmem y).1 hy).1
            exact hf.ne j i (hj.trans hx.symm)
        have hm := C48_optimum (hG r) (envG r).resume (envG r).start hfresh2 0 true
        revert hm
        cases maximize (envG r).call (envG r).resume (envG r).start osel 0 true (growContent cons psel additional ps ++ h.map fun x => .lit ⟨x, true⟩)
            (posLits (assumptions psel ps)) with
        | fuel => exact id
        | canceled m => intro _; trivial
        | done m =>
          cases m with
          | none =>
            intro hno
            dsimp only
            rw [hJ1, mapM_lookup hf.pinj ps J hJ2]
            dsimp only
            have hJn : J.Nodup := by rw [hJ1] at hnd; exact hnd.of_map _
            have hlen : (J.filterMap fun i => ps[i]?).length = h.length := by
              rw [hJ1, List.length_map]
              clear hJ1 hJn hno
              induction J with
              | nil => rfl
              | cons i J ih =>
                have hi := hJ2 i List.mem_cons_self
                simp [hi, ih fun j hj => hJ2 j (List.mem_cons_of_mem _ hj)]
            refine ⟨filterMap_subperm ps J hJn, ?_, fun u hu hu2 => by rw [hlen]; exact hsize u hu hu2⟩
            rintro ⟨w, hw⟩
            refine hno ?_
            -- extend `w` to the selectors
            let w' : α → Bool := fun x => match lookup psel ps x with | some p => p.fm.eval w | none => w x
            have hw'1 : ∀ x, (∀ i, x ≠ psel i) → w' x = w x := by
              intro x hx
              have : lookup psel ps x = none := by
                simp only [lookup, Option.map_eq_none_iff, List.find?_eq_none]
                intro pi _
                simpa using fun he => hx pi.2 he.symm
              simp only [w', this]
            have hw'2 : ∀ i p, ps[i]? = some p → w' (psel i) = p.fm.eval w := by
              intro i p hp
              simp only [w', lookup_sel hf.pinj hp]
            have hw'3 : ∀ f : Fm α, (∀ i, psel i ∉ f.vars) → f.eval w' = f.eval w := fun f hf2 =>
              Fm.eval_congr f fun x hx => hw'1 x fun i hi => hf2 i (hi ▸ hx)
            refine ⟨w', ?_⟩
            rw [holds_append, growContent_eval]
            refine ⟨⟨fun f hfm => ?_, fun i p hp => ?_⟩, fun f hfm => ?_⟩
            · rw [hw'3 f fun i => (hf.additional f hfm i).1]
              exact hw f (List.mem_append_left _ hfm)
            · rw [hw'2 i p hp, hw'3 _ fun i => (hf.props p (List.mem_of_getElem? hp) i).1]
            · obtain ⟨x, hx, rfl⟩ := List.mem_map.1 hfm
              rw [hJ1] at hx
              obtain ⟨i, hi, rfl⟩ := List.mem_map.1 hx
              have hlt := hJ2 i hi
              simp only [Fm.eval_lit, Lit.eval, if_true]
              rw [hw'2 i _ (List.getElem?_eq_getElem hlt)]
              refine hw _ (List.mem_append_right _ (List.mem_map.2 ⟨ps[i], ?_, rfl⟩))
              exact List.mem_filterMap.2 ⟨i, hi, List.getElem?_eq_getElem hlt⟩
          | some w =>
            rintro ⟨hw, _⟩
            dsimp only
            rw [holds_append] at hw
            generalize hc : (ord (assumptions psel ps).eraseDups).filter
              (fun x => decide (x ∉ posVars (resultModel ord (growContent cons psel additional ps ++ h.map fun x => .lit ⟨x, true⟩) (posLits (assumptions psel ps)) [] w))) = c
            have hcm : ∀ x, x ∈ c ↔ x ∈ assumptions psel ps ∧ w x = false := by
              intro x
              rw [← hc]
              simp only [List.mem_filter, (ho _).mem_iff, List.mem_eraseDups, decide_eq_true_eq]
              refine and_congr_right fun hx => ?_
              rw [mem_result ho]
              obtain ⟨i, hi, rfl⟩ := hA x hx
              obtain ⟨f, hf1, hf2⟩ := growContent_known (cons := cons) hf hi
              have : ∃ f ∈ growContent cons psel additional ps ++ h.map fun x => .lit ⟨x, true⟩, psel i ∈ f.vars :=
                ⟨f, List.mem_append_left _ hf1, hf2⟩
              constructor
              · intro hno
                by_contra hwx
                exact hno ⟨hx, this, by simpa using hwx⟩
              · rintro hwx ⟨_, _, h3⟩
                rw [hwx] at h3
                exact absurd h3 (by simp)
            have hcorr : Correction cons psel additional ps c := ⟨w, hw.1, hcm⟩
            have := smusLoop_spec ho hH hG hf hun k (r + 1) (cs ++ [c]) (by
              intro c' hc'
              rcases List.mem_append.1 hc' with h1 | h1
              · exact hcs c' h1
              · simp at h1; subst h1; exact hcorr) (by
              -- the current hitting set is not counted any more
              have hlt := countP_lt (l := (assumptions psel ps).sublists) (p := hits cs) (q := fun s => c.any fun x => decide (x ∈ s))
                ((assumptions psel ps).filter fun x => decide (x ∈ h)) (List.mem_sublists.2 List.filter_sublist) (by
                  simp only [hits, List.all_eq_true, List.any_eq_true, decide_eq_true_eq]
                  intro c' hc'
                  obtain ⟨x, hx1, hx2, hx3⟩ := hsClause_hit (hv _ (List.mem_map.2 ⟨c', hc', rfl⟩))
                  obtain ⟨_, _, hw'⟩ := hcs c' hc'
                  have hxA := ((hw' x).1 hx1).1
                  exact ⟨x, hx1, List.mem_filter.2 ⟨hxA, by simpa using (hmem x).2 ⟨hxA, ⟨_, List.mem_map.2 ⟨c', hc', rfl⟩, hx2⟩, hx3⟩⟩⟩) (by
                  rw [List.any_eq_false]
                  intro x hx
                  simp only [List.mem_filter, decide_eq_true_eq]
                  rintro ⟨_, hxh⟩
                  have h1 := hw.2 _ (List.mem_map.2 ⟨x, hxh, rfl⟩)
                  simp [Lit.eval, ((hcm x).1 hx).2] at h1)
              have he : (fun s => hits cs s && c.any fun x => decide (x ∈ s)) = hits (cs ++ [c]) := by
                funext s
                simp [hits]
              rw [he] at hlt
              omega)
            rw [List.map_append] at this
            exact this

/-! ## C29 -/

/-- **C29**: for every list of propositions, all additional constraints and every handler: a returned SMUS is unsatisfiable together with the constraints and no
unsatisfiable subset of the propositions is smaller; nothing is returned iff everything is satisfiable; the computation does not fail in another way. -/
theorem C29_smus_partial (cons start : Bool) {call0 : SatOracle α} (h0 : call0.Ok) {psel osel : Nat → α} {ord : List α → List α} (ho : ∀ l, (ord l).Perm l)
    {envH envG : Nat → OptEnv α} (hH : ∀ r, (envH r).call.Ok) (hG : ∀ r, (envG r).call.Ok) {additional : List (Fm α)} {ps : List (Prp α)}
    (hf : SelFresh psel osel additional ps) :
    SmusResult additional ps (smus cons start call0 psel osel ord envH envG additional ps) := by
  unfold smus
  cases start with
  | false => simp [SmusResult]
  | true =>
    simp only [if_true]
    have hall : ∀ v, Holds v (growContent cons psel additional ps ++ (assumptions psel ps).map fun x => .lit ⟨x, true⟩) →
        Holds v (additional ++ ps.map (·.fm)) := by
      intro v hv
      rw [holds_append, growContent_eval] at hv
      rw [holds_append]
      refine ⟨hv.1.1, fun f hfm => ?_⟩
      obtain ⟨p, hp, rfl⟩ := List.mem_map.1 hfm
      obtain ⟨i, hi, rfl⟩ := List.getElem_of_mem hp
      rw [← hv.1.2 i _ (List.getElem?_eq_getElem hi)]
      have := hv.2 _ (List.mem_map.2 ⟨psel i, mem_assumptions.2 ⟨i, hi, rfl⟩, rfl⟩)
      simpa [Lit.eval] using this
    cases hcall : call0 0 (growContent cons psel additional ps ++ (assumptions psel ps).map fun x => .lit ⟨x, true⟩) with
    | none => simp [SmusResult]
    | some r =>
      cases r with
      | some v =>
        intro hun
        exact hun ⟨v, hall v ((h0 0 _).2 v hcall)⟩
      | none =>
        dsimp only
        have hun : Unsat additional ps := by
          rintro ⟨w, hw⟩
          refine (h0 0 _).1 hcall ?_
          let w' : α → Bool := fun x => match lookup psel ps x with | some p => p.fm.eval w | none => w x
          have hw'1 : ∀ x, (∀ i, x ≠ psel i) → w' x = w x := by
            intro x hx
            have : lookup psel ps x = none := by
              simp only [lookup, Option.map_eq_none_iff, List.find?_eq_none]
              intro pi _
              simpa using fun he => hx pi.2 he.symm
            simp only [w', this]
          have hw'2 : ∀ i p, ps[i]? = some p → w' (psel i) = p.fm.eval w := by
            intro i p hp
            simp only [w', lookup_sel hf.pinj hp]
          have hw'3 : ∀ f : Fm α, (∀ i, psel i ∉ f.vars) → f.eval w' = f.eval w := fun f hf2 =>
            Fm.eval_congr f fun x hx => hw'1 x fun i hi => hf2 i (hi ▸ hx)
          refine ⟨w', ?_⟩
          rw [holds_append, growContent_eval]
          refine ⟨⟨fun f hfm => ?_, fun i p hp => ?_⟩, fun f hfm => ?_⟩
          · rw [hw'3 f fun i => (hf.additional f hfm i).1]
            exact hw f (List.mem_append_left _ hfm)
          · rw [hw'2 i p hp, hw'3 _ fun i => (hf.props p (List.mem_of_getElem? hp) i).1]
          · obtain ⟨x, hx, rfl⟩ := List.mem_map.1 hfm
            obtain ⟨i, hi, rfl⟩ := mem_assumptions.1 hx
            simp only [Fm.eval_lit, Lit.eval, if_true]
            rw [hw'2 i _ (List.getElem?_eq_getElem hi)]
            exact hw _ (List.mem_append_right _ (List.mem_map.2 ⟨ps[i], List.getElem_mem _, rfl⟩))
        refine smusLoop_spec ho hH hG hf hun _ 0 [] (by simp) ?_
        have : (assumptions psel ps).sublists.countP (hits []) ≤ (assumptions psel ps).sublists.length := List.countP_le_length
        rw [List.length_sublists] at this
        simp only [assumptions, List.length_map, List.length_range] at this
        simp only [assumptions]
        omega

/-! ### a case meeting the hypotheses: `x`, `¬x ∨ y`, `¬y`, `¬x` with the smallest unsatisfiable subset `{x, ¬x}` -/
section Example
private def sPs : List (Prp Nat) := [⟨0, .lit ⟨0, true⟩⟩, ⟨1, .or [.lit ⟨0, false⟩, .lit ⟨1, true⟩]⟩, ⟨2, .lit ⟨1, false⟩⟩, ⟨3, .lit ⟨0, false⟩⟩]
/-- truth tables over the variables `0, 1, 10..13, 20..23` -/
private def sVals : List (Nat → Bool) :=
  (List.range 1024).map fun m x => Nat.testBit m (if x < 2 then x else if x < 20 then x - 8 else x - 14)
private def sTT : SatOracle Nat := fun _ fs => some (sVals.find? fun v => fs.all (·.eval v))
private def sEnv : OptEnv Nat := ⟨sTT, fun _ => true, true⟩
example : SelFresh (fun i => 10 + 2 * i) (fun i => 11 + 2 * i) [] sPs := by
  refine ⟨fun i j h => by simp at h; omega, fun i j h => by simp at h; omega, fun i j => by simp; omega, by simp, ?_⟩
  intro p hp i
  simp only [sPs, List.mem_cons, List.not_mem_nil, or_false] at hp
  rcases hp with rfl | rfl | rfl | rfl <;> simp <;> omega
private def sPtrs : Res (Option (List (Prp Nat))) → Option (List Nat)
  | .ok (some m) => some (m.map (·.ptr))
  | _ => none
example : sPtrs (smus false true sTT (fun i => 10 + i) (fun i => 20 + i) id (fun _ => sEnv) (fun _ => sEnv) [] sPs) = some [0, 3] := by decide +kernel
end Example

end Verif.Explain
