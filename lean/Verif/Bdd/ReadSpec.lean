import Verif.Bdd.ReadLemmas
import Verif.Bdd.ReorderProps
import Verif.NormalForm.Tseitin
import Verif.Simpl.Advanced
/-
The functions that read a BDD are right for every BDD of a well-formed table.
-/
namespace Verif.Bdd
open Verif Verif.Tree
set_option linter.unusedSectionVars false
variable {α : Type} [DecidableEq α]

/-! ### BDDs as functions of the named variables -/

/-- the node `a` is the function `g` of the named variables, whatever the other variables are -/
def DenO (o : KO) (names : List α) (a : Nat) (g : (α → Bool) → Bool) : Prop :=
  ∃ t, Rep o.k.nd a t ∧ ∀ (ρ : Nat → Bool) (v : α → Bool), (∀ (j : Nat) x, names[j]? = some x → ρ j = v x) →
    (t.eval fun l => ρ (o.l2v l)) = g v

theorem byName_ok (names : List α) (v : α → Bool) (j : Nat) (x : α) (h : names[j]? = some x) : byName names v j = v x := by
  simp [byName, h]

/-- values by position come from values by name -/
theorem ofPos {names : List α} (hnd : names.Nodup) (ρ : Nat → Bool) :
    ∃ v : α → Bool, ∀ (j : Nat) x, names[j]? = some x → ρ j = v x := by
  refine ⟨fun x => ρ (names.idxOf x), fun j x hx => ?_⟩
  obtain ⟨hj, hx⟩ := List.getElem?_eq_some_iff.1 hx
  subst hx
  show ρ j = ρ _
  rw [hnd.idxOf_getElem]

/-- a BDD that is a function of the named variables asks for these only -/
theorem levels_named {P : Par} {o : KO} (h : OInv P o) {names : List α} (hnd : names.Nodup) (hlen : names.length ≤ o.k.n)
    {g : (α → Bool) → Bool} {a : Nat} {t : T}
    (hr : Rep o.k.nd a t) (hg : ∀ (ρ : Nat → Bool) (v : α → Bool), (∀ (j : Nat) x, names[j]? = some x → ρ j = v x) →
      (t.eval fun l => ρ (o.l2v l)) = g v) : ∀ l ∈ t.levels, ∃ x, names[o.l2v l]? = some x := by
  intro l hl
  have ho := h.inv.ord hr
  have hln := (ho.levels l hl).2
  by_contra hc
  have hc : names[o.l2v l]? = none := by
    cases e : names[o.l2v l]? with
    | none => rfl
    | some x => exact absurd ⟨x, e⟩ hc
  obtain ⟨ρ, hρ⟩ := ho.dep l hl
  obtain ⟨v, hv⟩ := ofPos hnd fun x => ρ (o.v2l x)
  have key : ∀ b, t.eval (setv ρ l b) = g v := fun b => by
    rw [← hg (fun x => setv ρ l b (o.v2l x)) v]
    · refine ho.agree fun w _ hw => ?_
      rw [(h.tabs.vl w hw).2]
    · intro j x hx
      rw [← hv j x hx]
      have : j ≠ o.l2v l := fun e => by rw [← e, hx] at hc; cases hc
      by_cases e : o.v2l j = l
      · have hj : j < o.k.n := Nat.lt_of_lt_of_le (List.getElem?_eq_some_iff.1 hx).1 hlen
        have he := (h.tabs.lv j hj).2
        rw [e] at he
        exact absurd he.symm this
      · simp [setv, e]
  exact hρ ((key false).trans (key true).symm)

/-! ### Normal forms -/

theorem pathLits_spec {names : List α} {cnf : Bool} {q : Nat → Option Bool} : ∀ (L : List Nat),
    (∀ x ∈ L, q x ≠ none → ∃ y, names[x]? = some y) →
    ∃ ls, ((L.filterMap fun i => (q i).map fun b => (i, b)).mapM fun x =>
        (names[x.1]?).map fun y => (⟨y, if cnf then !x.2 else x.2⟩ : Lit α)) = some ls ∧
      (∀ l ∈ ls, l.var ∈ names) ∧
      ∀ v, (ls.all fun l => l.eval v != cnf) = L.all fun x => fits (q x) (byName names v x)
  | [], _ => ⟨[], rfl, by simp, fun v => rfl⟩
  | x :: L, h => by
    obtain ⟨ls, a1, a2, a3⟩ := pathLits_spec L fun y hy => h y (by simp [hy])
    cases hq : q x with
    | none =>
      refine ⟨ls, by rw [List.filterMap_cons]; simpa [hq] using a1, a2, fun v => ?_⟩
      rw [a3, List.all_cons, hq]; rfl
    | some b =>
      obtain ⟨y, hy⟩ := h x (by simp) (by simp [hq])
      refine ⟨⟨y, if cnf then !b else b⟩ :: ls, ?_, ?_, fun v => ?_⟩
      · rw [List.filterMap_cons]
        simp only [hq, Option.map_some, List.mapM_cons]
        rw [a1, hy]
        rfl
      · intro l hl
        rcases List.mem_cons.1 hl with rfl | hl
        · exact List.mem_of_getElem? hy
        · exact a2 l hl
      · rw [List.all_cons, List.all_cons, a3, hq]
        congr 1
        simp only [fits, byName, hy, Option.map_some, Option.getD_some, Lit.eval]
        cases cnf <;> cases b <;> cases v y <;> rfl

theorem mapM_total {β γ : Type} {f : β → Option γ} {R : β → γ → Prop} : ∀ (L : List β), (∀ x ∈ L, ∃ y, f x = some y ∧ R x y) →
    ∃ ys, L.mapM f = some ys ∧ List.Forall₂ R L ys
  | [], _ => ⟨[], rfl, .nil⟩
  | x :: L, h => by
    obtain ⟨y, a1, a2⟩ := h x (by simp)
    obtain ⟨ys, b1, b2⟩ := mapM_total L fun z hz => h z (by simp [hz])
    exact ⟨y :: ys, by rw [List.mapM_cons, a1, b1]; rfl, .cons a2 b2⟩

theorem forall2_countP {β γ : Type} {p : β → Bool} {p' : γ → Bool} {L : List β} {M : List γ}
    (h : List.Forall₂ (fun x y => p' y = p x) L M) : M.countP p' = L.countP p := by
  induction h with
  | nil => rfl
  | cons a _ ih => simp only [List.countP_cons, a, ih]

theorem forall2_right {β γ : Type} {R : β → γ → Prop} {S : γ → Prop} {L : List β} {M : List γ} (h : List.Forall₂ R L M)
    (hR : ∀ x y, R x y → S y) : ∀ y ∈ M, S y := by
  induction h with
  | nil => simp
  | cons a _ ih =>
    intro y hy
    rcases List.mem_cons.1 hy with rfl | hy
    · exact hR _ _ a
    · exact ih y hy

/-- the terms of the normal forms -/
theorem bddNF_spec {P : Par} {o : KO} (h : OInv P o) (cons cnf : Bool) {names : List α} (hnd : names.Nodup)
    (hlen : names.length ≤ o.k.n) {a : Nat} {g : (α → Bool) → Bool} (hd : DenO o names a g) :
    ∃ ts : List (List (Lit α)), bddNF cons o names cnf a = some (if cnf then tAnd cons (ts.map tClause) else tOr cons (ts.map tMinterm)) ∧
      (∀ c ∈ ts, ∀ l ∈ c, l.var ∈ names) ∧
      ∀ v, (ts.countP fun c => c.all fun l => l.eval v != cnf) = if g v = cnf then 0 else 1 := by
  obtain ⟨t, hr, hg⟩ := hd
  obtain ⟨ps, p1, p2, p3⟩ := paths_spec h (!cnf) hr
  have hnm := levels_named h hnd hlen hr hg
  obtain ⟨ts, t1, t2⟩ := mapM_total (f := pathLits names o.k.n cnf)
    (R := fun q c => (∀ l ∈ c, l.var ∈ names) ∧ ∀ v, (c.all fun l => l.eval v != cnf) = covers o.k.n (byName names v) q) ps
    (fun q hq => by
      obtain ⟨ls, a1, a2, a3⟩ := pathLits_spec (names := names) (cnf := cnf) (q := q) (List.range o.k.n) fun x hx hne => by
        have hx := List.mem_range.1 hx
        have := hnm _ (p3 q hq x hx hne)
        rwa [(h.tabs.lv x hx).2] at this
      exact ⟨ls, a1, a2, a3⟩)
  refine ⟨ts, ?_, fun c hc => ?_, fun v => ?_⟩
  · unfold bddNF
    rw [p1, Option.bind_some, t1]
    rfl
  · exact (forall2_right t2 fun _ _ r => r.1) c hc
  · rw [forall2_countP (t2.imp fun q c hqc => hqc.2 v), p2, hg _ v (byName_ok names v)]
    cases g v <;> cases cnf <;> rfl

/-! ### Formulas -/

theorem toFormulaRec_spec {P : Par} {o : KO} (h : OInv P o) (cons goal : Bool) {names : List α} : ∀ {f r d : Nat} {t : T},
    Rep o.k.nd r t → Ord o.k.n d t → d ≤ o.k.n → o.k.n - d < f → (∀ l ∈ t.levels, ∃ x, names[o.l2v l]? = some x) →
    ∃ φ, toFormulaRec cons o names goal f r = some φ ∧ ∀ v, φ.eval v = ((t.eval fun l => byName names v (o.l2v l)) == goal)
  | 0, _, _, _, _, _, _, hf, _ => by omega
  | f + 1, r, d, t, hr, ho, hd, hf, hn => by
    unfold toFormulaRec
    cases hr with
    | ff => exact ⟨_, by rw [if_neg (by omega), if_pos rfl], fun v => by cases goal <;> simp [T.eval, tConst]⟩
    | tt => exact ⟨_, by rw [if_pos rfl], fun v => by cases goal <;> simp [T.eval, tConst]⟩
    | @node _ lo tl th g1 g2 g3 g4 =>
      obtain ⟨o1, o2, o3, o4, o5⟩ := ho
      obtain ⟨x, hx⟩ := hn (o.k.nd r).lvl (by simp [T.levels])
      rw [if_neg (by omega), if_neg (by omega), hx, Option.bind_some, g2, Option.bind_some]
      have side : ∀ {c : Nat} {tc : T} (b : Bool), Rep o.k.nd c tc → Ord o.k.n ((o.k.nd r).lvl + 1) tc →
          (∀ l ∈ tc.levels, ∃ x, names[o.l2v l]? = some x) →
          ∃ φ, (if c = leafIx (!goal) then some .fls
            else (toFormulaRec cons o names goal f c).map fun g => tAnd cons [.lit ⟨x, b⟩, g]) = some φ ∧
            ∀ v, φ.eval v = (v x == b && ((tc.eval fun l => byName names v (o.l2v l)) == goal)) := by
        intro c tc b hc hoc hnc
        by_cases ec : c = leafIx (!goal)
        · rw [if_pos ec]
          subst ec
          have := rep_leafIx hc
          subst this
          exact ⟨_, rfl, fun v => by cases goal <;> simp [T.eval]⟩
        · rw [if_neg ec]
          obtain ⟨φ, a1, a2⟩ := toFormulaRec_spec h cons goal (f := f) hc hoc (by omega) (by omega) hnc
          refine ⟨_, by rw [a1]; rfl, fun v => ?_⟩
          simp only [eval_tAnd, List.all_cons, List.all_nil, Bool.and_true, a2, Fm.eval, Lit.eval]
          cases b <;> cases v x <;> rfl
      obtain ⟨φ, a1, a2⟩ := side false g3 o4 fun l hl => hn l (by simp [T.levels, hl])
      obtain ⟨ψ, b1, b2⟩ := side true g4 o5 fun l hl => hn l (by simp [T.levels, hl])
      refine ⟨tOr cons [φ, ψ], by rw [a1, Option.bind_some, b1]; rfl, fun v => ?_⟩
      simp only [eval_tOr, List.any_cons, List.any_nil, Bool.or_false, a2, b2, T.eval, byName_ok names v _ x hx]
      cases v x <;> simp

theorem toFormula_spec {P : Par} {o : KO} (h : OInv P o) (cons goal : Bool) {names : List α} (hnd : names.Nodup)
    (hlen : names.length ≤ o.k.n) {a : Nat} {g : (α → Bool) → Bool} (hd : DenO o names a g) :
    ∃ φ, toFormula cons o names goal a = some φ ∧ ∀ v, φ.eval v = g v := by
  obtain ⟨t, hr, hg⟩ := hd
  obtain ⟨φ, a1, a2⟩ := toFormulaRec_spec h cons goal (f := o.k.n + 1) hr (h.inv.ord hr) (Nat.zero_le _) (by omega)
    (levels_named h hnd hlen hr hg)
  refine ⟨_, by unfold toFormula; rw [a1]; rfl, fun v => ?_⟩
  have := a2 v
  rw [hg _ v (byName_ok names v)] at this
  cases goal <;> simp [this]

/-! ### Enumeration of models -/

theorem genAll_spec {names : List α} {rel : List Nat} (hrel : ∀ i ∈ rel, ∃ x, names[i]? = some x) :
    ∀ (is : List Nat) (q : Nat → Option Bool) (ms : List (List (Lit α))), (∀ i ∈ rel, i ∈ is ∨ q i ≠ none) → (∀ i ∈ is, i ∈ rel) →
      ms.Nodup → ∃ ms', genAll names rel is q ms = some ms' ∧ ms'.Nodup ∧
        ∀ m, m ∈ ms' ↔ m ∈ ms ∨ ∃ σ : Nat → Bool, (∀ i ∈ rel, fits (q i) (σ i) = true) ∧ m = rel.filterMap fun i => (names[i]?).map fun x => ⟨x, σ i⟩
  | [], q, ms, hq, _, hms => by
    have hm : (rel.mapM fun i => (names[i]?).map fun x => (⟨x, q i != some false⟩ : Lit α)) =
        some (rel.filterMap fun i => (names[i]?).map fun x => ⟨x, q i != some false⟩) := by
      have key : ∀ L : List Nat, (∀ i ∈ L, ∃ x, names[i]? = some x) → (L.mapM fun i => (names[i]?).map fun x => (⟨x, q i != some false⟩ : Lit α)) =
          some (L.filterMap fun i => (names[i]?).map fun x => ⟨x, q i != some false⟩) := by
        intro L hL
        induction L with
        | nil => rfl
        | cons i L ih =>
          obtain ⟨x, hx⟩ := hL i (by simp)
          rw [List.mapM_cons, ih fun j hj => hL j (by simp [hj]), List.filterMap_cons, hx]
          rfl
      exact key rel hrel
    have hex : ∀ m, (∃ σ : Nat → Bool, (∀ i ∈ rel, fits (q i) (σ i) = true) ∧ m = rel.filterMap fun i => (names[i]?).map fun x => (⟨x, σ i⟩ : Lit α)) ↔
        m = rel.filterMap fun i => (names[i]?).map fun x => ⟨x, q i != some false⟩ := by
      intro m
      constructor
      · rintro ⟨σ, h1, rfl⟩
        refine List.filterMap_congr fun i hi => ?_
        have := h1 i hi
        have hne := (hq i hi).resolve_left (by simp)
        cases hqi : q i with
        | none => exact absurd hqi hne
        | some b =>
          rw [hqi] at this
          have : b = σ i := beq_iff_eq.1 this
          have : σ i = (some b != some false) := by rw [← this]; cases b <;> rfl
          exact congrArg (fun c => (names[i]?).map fun x => (⟨x, c⟩ : Lit α)) this
      · rintro rfl
        refine ⟨fun i => q i != some false, fun i hi => ?_, rfl⟩
        have hne := (hq i hi).resolve_left (by simp)
        cases hqi : q i with
        | none => exact absurd hqi hne
        | some b => cases b <;> simp [fits, hqi]
    unfold genAll
    rw [hm, Option.map_some]
    refine ⟨_, rfl, ?_, fun m => ?_⟩
    · split
      · exact hms
      · next hc => exact List.nodup_append.2 ⟨hms, by simp, fun a ha b hb e => by simp at hb; subst hb e; exact hc ha⟩
    · rw [hex]
      split
      · next hc => exact ⟨.inl, fun h => h.elim id fun e => e ▸ hc⟩
      · simp
  | i :: is, q, ms, hq, his, hms => by
    unfold genAll
    by_cases hqi : q i = none
    · rw [if_neg (by simpa using hqi)]
      have hc : ∀ b, ∀ j ∈ rel, j ∈ is ∨ upd q i (some b) j ≠ none := fun b j hj => by
        by_cases e : j = i
        · subst e; exact .inr (by simp [upd])
        · rcases hq j hj with h | h
          · exact .inl ((List.mem_cons.1 h).resolve_left e)
          · exact .inr (by simpa [upd, e] using h)
      obtain ⟨m1, a1, a2, a3⟩ := genAll_spec hrel is (upd q i (some false)) ms (hc false) (fun j hj => his j (by simp [hj])) hms
      obtain ⟨m2, b1, b2, b3⟩ := genAll_spec hrel is (upd q i (some true)) m1 (hc true) (fun j hj => his j (by simp [hj])) a2
      refine ⟨m2, by rw [a1]; exact b1, b2, fun m => ?_⟩
      rw [b3, a3, or_assoc]
      refine or_congr_right ?_
      have hi := his i (by simp)
      have hf : ∀ b (σ : Nat → Bool), (∀ j ∈ rel, fits (upd q i (some b) j) (σ j) = true) ↔ σ i = b ∧ ∀ j ∈ rel, fits (q j) (σ j) = true := by
        intro b σ
        constructor
        · intro h
          have h1 := h i hi
          rw [upd_self] at h1
          refine ⟨(beq_iff_eq.1 h1).symm, fun j hj => ?_⟩
          by_cases e : j = i
          · subst e; rw [hqi]; rfl
          · have := h j hj
            rwa [upd_ne _ _ e] at this
        · rintro ⟨h1, h2⟩ j hj
          by_cases e : j = i
          · subst e; rw [upd_self, h1]; exact beq_self_eq_true b
          · rw [upd_ne _ _ e]; exact h2 j hj
      constructor
      · rintro (⟨σ, h1, h2⟩ | ⟨σ, h1, h2⟩)
        · exact ⟨σ, ((hf _ _).1 h1).2, h2⟩
        · exact ⟨σ, ((hf _ _).1 h1).2, h2⟩
      · rintro ⟨σ, h1, h2⟩
        cases hs : σ i with
        | false => exact .inl ⟨σ, (hf _ _).2 ⟨hs, h1⟩, h2⟩
        | true => exact .inr ⟨σ, (hf _ _).2 ⟨hs, h1⟩, h2⟩
    · rw [if_pos hqi]
      refine genAll_spec hrel is q ms (fun j hj => ?_) (fun j hj => his j (by simp [hj])) hms
      by_cases e : j = i
      · subst e; exact .inr hqi
      · exact (hq j hj).imp_left fun h => (List.mem_cons.1 h).resolve_left e

theorem genAll_fold {names : List α} {rel : List Nat} (hrel : ∀ i ∈ rel, ∃ x, names[i]? = some x) :
    ∀ (ps : List (Nat → Option Bool)) (ms : List (List (Lit α))), ms.Nodup →
      ∃ ms', ps.foldlM (fun ms q => genAll names rel rel q ms) ms = some ms' ∧ ms'.Nodup ∧
        ∀ m, m ∈ ms' ↔ m ∈ ms ∨ ∃ q ∈ ps, ∃ σ : Nat → Bool, (∀ i ∈ rel, fits (q i) (σ i) = true) ∧ m = rel.filterMap fun i => (names[i]?).map fun x => ⟨x, σ i⟩
  | [], ms, h => ⟨ms, rfl, h, by simp⟩
  | q :: ps, ms, h => by
    obtain ⟨m1, a1, a2, a3⟩ := genAll_spec hrel rel q ms (fun i hi => .inl hi) (fun i hi => hi) h
    obtain ⟨m2, b1, b2, b3⟩ := genAll_fold hrel ps m1 a2
    refine ⟨m2, by rw [List.foldlM_cons, a1]; exact b1, b2, fun m => ?_⟩
    rw [b3, a3, or_assoc]
    simp only [List.mem_cons, exists_eq_or_imp]

theorem modelEnum_spec {P : Par} {o : KO} (h : OInv P o) {names : List α} (hnd : names.Nodup) (hlen : names.length ≤ o.k.n) {a : Nat}
    {g : (α → Bool) → Bool} (hd : DenO o names a g) (xs : List α) :
    ∃ ms, modelEnum o names a xs = some ms ∧ ms.Nodup ∧
      ∀ m, m ∈ ms ↔ ∃ v, g v = true ∧ m = (xs.filter (· ∈ names)).map fun x => ⟨x, v x⟩ := by
  obtain ⟨t, hr, hg⟩ := hd
  obtain ⟨ps, p1, p2, -⟩ := paths_spec h true hr
  -- the indices
  have hidx : ∀ x ∈ names, names[names.idxOf x]? = some x := fun x hx => by
    rw [List.getElem?_eq_getElem (List.idxOf_lt_length_of_mem hx)]
    simp
  have hrel : ∀ i ∈ xs.filterMap fun x => if x ∈ names then some (names.idxOf x) else none, ∃ x, names[i]? = some x := by
    intro i hi
    obtain ⟨x, -, hx⟩ := List.mem_filterMap.1 hi
    split at hx
    · next hn => cases hx; exact ⟨x, hidx x hn⟩
    · cases hx
  have hm : ∀ σ : Nat → Bool, ((xs.filterMap fun x => if x ∈ names then some (names.idxOf x) else none).filterMap fun i =>
      (names[i]?).map fun x => (⟨x, σ i⟩ : Lit α)) = (xs.filter (· ∈ names)).map fun x => ⟨x, σ (names.idxOf x)⟩ := by
    intro σ
    induction xs with
    | nil => rfl
    | cons x xs ih =>
      by_cases hx : x ∈ names
      · rw [List.filterMap_cons, if_pos hx, List.filter_cons_of_pos (by simpa using hx), List.map_cons, List.filterMap_cons, hidx x hx,
          ← ih fun i hi => hrel i (by
            obtain ⟨y, h1, h2⟩ := List.mem_filterMap.1 hi
            exact List.mem_filterMap.2 ⟨y, by simp [h1], h2⟩)]
        rfl
      · rw [List.filterMap_cons, if_neg hx, List.filter_cons_of_neg (by simpa using hx),
          ← ih fun i hi => hrel i (by
            obtain ⟨y, h1, h2⟩ := List.mem_filterMap.1 hi
            exact List.mem_filterMap.2 ⟨y, by simp [h1], h2⟩)]
  obtain ⟨ms, a1, a2, a3⟩ := genAll_fold hrel ps [] List.nodup_nil
  refine ⟨ms, by unfold modelEnum; rw [p1]; exact a1, a2, fun m => ?_⟩
  rw [a3]
  simp only [List.not_mem_nil, false_or, hm]
  constructor
  · rintro ⟨q, hq, σ, h1, rfl⟩
    -- complete the path
    have hρ : covers o.k.n (fun x => match q x with | none => σ x | some b => b) q = true := by
      unfold covers
      rw [List.all_eq_true]
      intro x _
      cases hx : q x <;> simp [fits, hx]
    obtain ⟨v, hv⟩ := ofPos hnd fun x => match q x with | none => σ x | some b => b
    refine ⟨v, ?_, List.map_congr_left fun x hx => ?_⟩
    · rw [← hg _ v hv]
      by_contra hc
      have := p2 fun x => match q x with | none => σ x | some b => b
      rw [if_neg hc, List.countP_eq_zero] at this
      exact this q hq hρ
    · have hx : x ∈ xs ∧ x ∈ names := by simpa using hx
      rw [← hv _ x (hidx x hx.2)]
      have := h1 (names.idxOf x) (List.mem_filterMap.2 ⟨x, hx.1, by rw [if_pos hx.2]⟩)
      cases hqx : q (names.idxOf x) with
      | none => simp
      | some b =>
        rw [hqx] at this
        simp [beq_iff_eq.1 this]
  · rintro ⟨v, hv, rfl⟩
    have := p2 (byName names v)
    rw [if_pos (by rw [hg _ v (byName_ok names v), hv])] at this
    obtain ⟨q, hq, hc⟩ := List.countP_pos_iff.1 (by omega : 0 < ps.countP (covers o.k.n (byName names v)))
    unfold covers at hc
    rw [List.all_eq_true] at hc
    refine ⟨q, hq, byName names v, fun i hi => hc i (List.mem_range.2 ?_), List.map_congr_left fun x hx => ?_⟩
    · obtain ⟨x, hx⟩ := hrel i hi
      exact Nat.lt_of_lt_of_le (List.getElem?_eq_some_iff.1 hx).1 hlen
    · have hx : x ∈ xs ∧ x ∈ names := by simpa using hx
      rw [byName_ok names v _ x (hidx x hx.2)]

/-! ### Counts -/

theorem markCount_spec {nd : Nat → Node} : ∀ (f : Nat) (m : Nat → Bool) (i : Nat), (markCount nd f m i).1 = mark nd f m i ∧
    ∃ L : List Nat, L.Nodup ∧ (∀ j, mark nd f m i j = true ↔ m j = true ∨ j ∈ L) ∧ (∀ j ∈ L, m j = false) ∧ (markCount nd f m i).2 = L.length
  | 0, m, i => ⟨rfl, [], by simp, by simp [mark], by simp, rfl⟩
  | f + 1, m, i => by
    unfold markCount mark
    by_cases h2 : i < 2
    · rw [if_pos h2, if_pos h2]
      exact ⟨rfl, [], by simp, by simp, by simp, rfl⟩
    rw [if_neg h2, if_neg h2]
    by_cases hm : m i = true
    · rw [if_pos hm, if_pos hm]
      exact ⟨rfl, [], by simp, by simp, by simp, rfl⟩
    rw [if_neg hm, if_neg hm]
    cases hl : (nd i).low with
    | none => exact ⟨rfl, [], by simp, by simp, by simp, rfl⟩
    | some lo =>
      obtain ⟨a1, A, a2, a3, a4, a5⟩ := markCount_spec f (upd m i true) lo
      obtain ⟨b1, B, b2, b3, b4, b5⟩ := markCount_spec f (mark nd f (upd m i true) lo) (nd i).high
      simp only
      rw [a1]
      refine ⟨b1, i :: (A ++ B), ?_, fun j => ?_, fun j hj => ?_, ?_⟩
      · refine List.nodup_cons.2 ⟨fun hi => ?_, List.nodup_append.2 ⟨a2, b2, fun x hx y hy e => ?_⟩⟩
        · rcases List.mem_append.1 hi with hi | hi
          · have := a4 i hi; simp at this
          · have := b4 i hi
            rw [mark_le nd f _ _ _ (by simp)] at this
            cases this
        · subst e
          have := b4 x hy
          rw [(a3 x).2 (.inr hx)] at this
          cases this
      · rw [b3, a3]
        simp only [List.mem_cons, List.mem_append]
        by_cases e : j = i
        · subst e; simp
        · rw [upd_ne _ _ e]; simp [e, or_assoc]
      · rcases List.mem_cons.1 hj with rfl | hj
        · simpa using hm
        · rcases List.mem_append.1 hj with hj | hj
          · have := a4 j hj
            by_cases e : j = i
            · subst e; simp at this
            · rwa [upd_ne _ _ e] at this
          · have hb := b4 j hj
            by_contra hc
            rw [Bool.not_eq_false] at hc
            rw [mark_le nd f _ _ _ (by
              by_cases e : j = i
              · subst e; simp
              · rw [upd_ne _ _ e]; exact hc)] at hb
            cases hb
      · simp only [a5, b5, List.length_cons, List.length_append]; omega

theorem mark_reach {nd : Nat → Node} : ∀ (f : Nat) (m : Nat → Bool) (i j : Nat), mark nd f m i j = true →
    m j = true ∨ 2 ≤ j ∧ Reach nd (· = i) j
  | 0, m, i, j, h => .inl h
  | f + 1, m, i, j, h => by
    unfold mark at h
    by_cases h2 : i < 2
    · rw [if_pos h2] at h; exact .inl h
    rw [if_neg h2] at h
    by_cases hm : m i = true
    · rw [if_pos hm] at h; exact .inl h
    rw [if_neg hm] at h
    cases hl : (nd i).low with
    | none => rw [hl] at h; exact .inl h
    | some lo =>
      rw [hl] at h
      have tr : ∀ {c}, Reach nd (· = i) c → ∀ {x}, Reach nd (· = c) x → Reach nd (· = i) x := by
        intro c hc x hx
        induction hx with
        | root e => exact e ▸ hc
        | low _ a b ih => exact .low ih a b
        | high _ a b ih => exact .high ih a b
      have hi : Reach nd (· = i) i := .root rfl
      rcases mark_reach f _ _ j h with h | ⟨h3, h4⟩
      · rcases mark_reach f _ _ j h with h | ⟨h3, h4⟩
        · by_cases e : j = i
          · subst e; exact .inr ⟨by omega, hi⟩
          · rw [upd_ne _ _ e] at h; exact .inl h
        · exact .inr ⟨h3, tr (.low hi (by omega) hl) h4⟩
      · exact .inr ⟨h3, tr (.high hi (by omega) hl) h4⟩

theorem Inv.mark_iff {P : Par} {k : K} (h : Inv P k) {a : Nat} {t : T} (hr : Rep k.nd a t) (j : Nat) :
    mark k.nd (k.n + 1) (fun _ => false) a j = true ↔ 2 ≤ j ∧ Reach k.nd (· = a) j := by
  constructor
  · intro hj
    exact (mark_reach _ _ _ _ hj).resolve_left (by simp)
  · rintro ⟨h2, hj⟩
    obtain ⟨s1, s2⟩ := mark_spec (f := k.n + 1) (m := fun _ => false) hr (h.ord hr) (by omega)
    have key : ∀ {x}, Reach k.nd (· = a) x → x < 2 ∨ mark k.nd (k.n + 1) (fun _ => false) a x = true := by
      intro x hx
      induction hx with
      | root e => subst e; exact s1
      | low _ ha hb ih =>
        obtain ⟨_, lo, e1, e2, _⟩ := (s2 _ (ih.resolve_left (by omega))).resolve_left (by simp)
        rw [hb] at e1; cases e1; exact e2
      | high _ ha hb ih =>
        obtain ⟨_, lo, e1, _, e3⟩ := (s2 _ (ih.resolve_left (by omega))).resolve_left (by simp)
        exact e3
    exact (key hj).resolve_left (by omega)

theorem mark_iff {P : Par} {o : KO} (h : OInv P o) {a : Nat} {t : T} (hr : Rep o.k.nd a t) (j : Nat) :
    mark o.k.nd (o.k.n + 1) (fun _ => false) a j = true ↔ 2 ≤ j ∧ Reach o.k.nd (· = a) j := h.inv.mark_iff hr j

theorem profileRec_spec {nd : Nat → Node} {l2v : Nat → Nat} : ∀ (f : Nat) (s : (Nat → Bool) × (Nat → Nat)) (i : Nat),
    (profileRec nd l2v f s i).1 = mark nd f s.1 i ∧
    ∃ L : List Nat, L.Nodup ∧ (∀ j, mark nd f s.1 i j = true ↔ s.1 j = true ∨ j ∈ L) ∧ (∀ j ∈ L, s.1 j = false) ∧
      ∀ x, (profileRec nd l2v f s i).2 x = s.2 x + (L.filter fun j => l2v (nd j).lvl = x).length
  | 0, s, i => ⟨rfl, [], by simp, by simp [mark], by simp, fun x => rfl⟩
  | f + 1, s, i => by
    unfold profileRec mark
    by_cases h2 : i < 2
    · rw [if_pos h2, if_pos h2]
      exact ⟨rfl, [], by simp, by simp, by simp, fun x => rfl⟩
    rw [if_neg h2, if_neg h2]
    by_cases hm : s.1 i = true
    · rw [if_pos hm, if_pos hm]
      exact ⟨rfl, [], by simp, by simp, by simp, fun x => rfl⟩
    rw [if_neg hm, if_neg hm]
    cases hl : (nd i).low with
    | none => exact ⟨rfl, [], by simp, by simp, by simp, fun x => rfl⟩
    | some lo =>
      simp only
      obtain ⟨a1, A, a2, a3, a4, a5⟩ := profileRec_spec (l2v := l2v) f (upd s.1 i true, upd s.2 (l2v (nd i).lvl) (s.2 (l2v (nd i).lvl) + 1)) lo
      obtain ⟨b1, B, b2, b3, b4, b5⟩ := profileRec_spec (l2v := l2v) f (profileRec nd l2v f (upd s.1 i true, upd s.2 (l2v (nd i).lvl) (s.2 (l2v (nd i).lvl) + 1)) lo) (nd i).high
      rw [a1] at b1 b3 b4
      simp only at a3 a4 a5 b1 b3 b4
      refine ⟨b1, i :: (A ++ B), ?_, fun j => ?_, fun j hj => ?_, fun x => ?_⟩
      · refine List.nodup_cons.2 ⟨fun hi => ?_, List.nodup_append.2 ⟨a2, b2, fun x hx y hy e => ?_⟩⟩
        · rcases List.mem_append.1 hi with hi | hi
          · have := a4 i hi; simp at this
          · have := b4 i hi
            rw [mark_le nd f _ _ _ (by simp)] at this
            cases this
        · subst e
          have := b4 x hy
          rw [(a3 x).2 (.inr hx)] at this
          cases this
      · rw [b3, a3]
        simp only [List.mem_cons, List.mem_append]
        by_cases e : j = i
        · subst e; simp
        · rw [upd_ne _ _ e]; simp [e, or_assoc]
      · rcases List.mem_cons.1 hj with rfl | hj
        · simpa using hm
        · rcases List.mem_append.1 hj with hj | hj
          · have := a4 j hj
            by_cases e : j = i
            · subst e; simp at this
            · rwa [upd_ne _ _ e] at this
          · have hb := b4 j hj
            by_contra hc
            rw [Bool.not_eq_false] at hc
            rw [mark_le nd f _ _ _ (by
              by_cases e : j = i
              · subst e; simp
              · rw [upd_ne _ _ e]; exact hc)] at hb
            cases hb
      · rw [b5, a5, List.filter_cons, List.filter_append]
        by_cases e : l2v (nd i).lvl = x
        · subst e
          simp only [upd_self, decide_true, if_true, List.length_cons, List.length_append]; omega
        · rw [upd_ne _ _ (Ne.symm e), if_neg (by simpa using e), List.length_append]; omega

theorem counts_spec {P : Par} {o : KO} (h : OInv P o) {a : Nat} {t : T} (hr : Rep o.k.nd a t) :
    ∃ L : List Nat, L.Nodup ∧ (∀ j, j ∈ L ↔ 2 ≤ j ∧ Reach o.k.nd (· = a) j) ∧ nodeCount o a = L.length ∧
      ∀ x, varProfile o a x = (L.filter fun j => o.l2v (o.k.nd j).lvl = x).length := by
  obtain ⟨-, L, a1, a2, -, a3⟩ := markCount_spec (nd := o.k.nd) (o.k.n + 1) (fun _ => false) a
  obtain ⟨-, M, b1, b2, -, b3⟩ := profileRec_spec (nd := o.k.nd) (l2v := o.l2v) (o.k.n + 1) (fun _ => false, fun _ => 0) a
  have hL : ∀ j, j ∈ L ↔ 2 ≤ j ∧ Reach o.k.nd (· = a) j := fun j => by
    rw [← mark_iff h hr, a2]; simp
  have hM : ∀ j, j ∈ M ↔ 2 ≤ j ∧ Reach o.k.nd (· = a) j := fun j => by
    rw [← mark_iff h hr, b2]; simp
  have hp : L.Perm M := (List.perm_ext_iff_of_nodup a1 b1).2 fun j => by rw [hL, hM]
  refine ⟨L, a1, hL, a3, fun x => ?_⟩
  unfold varProfile
  rw [b3]
  simp only [Nat.zero_add]
  exact (hp.filter _).length_eq.symm

end Verif.Bdd
