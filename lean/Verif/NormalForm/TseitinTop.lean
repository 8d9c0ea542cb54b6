import Verif.NormalForm.Tseitin
import Verif.NormalForm.Props
import Verif.Assignment.Props
/-! `TseitinCNF`: result and invariant of the reused state. -/
set_option linter.unusedSectionVars false
namespace Verif.NF
open Verif Verif.Tree Verif.Spec Verif.Assignment
variable {α : Type} [DecidableEq α]

/-- update of a valuation -/
def vset (v : α → Bool) (x : α) (b : Bool) : α → Bool := fun y => if y = x then b else v y

section restrict
variable {c : Bool}

theorem restrictL_eq (a : Asg α) (fs : List (Fm α)) : restrictL c a fs = fs.map (restrict c a) := by
  induction fs with
  | nil => simp [restrictL]
  | cons f fs ih => simp [restrictL, ih]

theorem restrictLit_shape (a : Asg α) (l : Lit α) : restrictLit a l = .tru ∨ restrictLit a l = .fls ∨ restrictLit a l = .lit l := by
  unfold restrictLit; repeat' split
  all_goals simp

theorem restrict_clause (a : Asg α) {f : Fm α} (h : isClause f = true) : isCNF (restrict c a f) = true := by
  cases f <;> simp [isClause] at h
  · rename_i l
    rw [restrict]
    rcases restrictLit_shape a l with e | e | e <;> rw [e] <;> rfl
  · rename_i fs
    rw [restrict, restrictL_eq]
    refine isNF_innerJoin (c := c) (d := true) ?_
    simp only [List.mem_map]
    rintro _ ⟨f, hf, rfl⟩
    obtain ⟨l, rfl⟩ := isLit_iff.1 (h f hf)
    rw [restrict]
    rcases restrictLit_shape a l with e | e | e <;> rw [e] <;> simp [isCl, isClause]

theorem restrict_cnf (a : Asg α) {f : Fm α} (h : isCNF f = true) : isCNF (restrict c a f) = true := by
  cases f with
  | tru => simp [restrict, isCNF]
  | fls => simp [restrict, isCNF]
  | and fs =>
    simp only [isCNF, List.all_eq_true] at h
    rw [restrict, restrictL_eq]
    refine isCNF_tAnd ?_
    simp only [List.mem_map]
    rintro _ ⟨f, hf, rfl⟩
    exact restrict_clause a (h f hf)
  | lit l => exact restrict_clause a rfl
  | or fs => exact restrict_clause a (by simpa [isCNF] using h)
  | _ => simp [isCNF, isClause] at h

theorem new_single (l : Lit α) : ∃ a, new [l] = some a := by
  unfold new addLit foldOpt; simp [empty, foldOpt]
  cases l.pos <;> simp

theorem restrictTop_cnf {l : Option (Lit α)} {f : Fm α} (h : isCNF f = true) : isCNF (restrictTop c l f) = true := by
  cases l with
  | none => exact h
  | some l => exact restrict_cnf _ h

/-- the restricted formula does not see the variable, and is the formula with the variable set -/
theorem restrictTop_vars {l : Lit α} {f : Fm α} : ∀ x ∈ (restrictTop c (some l) f).vars, x ∈ f.vars ∧ x ≠ l.var := by
  obtain ⟨a, ha⟩ := new_single l
  simp only [restrictTop, ha, Option.getD_some]
  intro x hx
  have := restrict_vars (new_disj ha) f x hx
  refine ⟨this.1, ?_⟩
  rintro rfl
  apply this.2
  have h1 := C06_new_content ha l.var
  rw [asgVars, List.mem_append]
  cases hp : l.pos
  · right; rw [h1.2]; rw [← hp]; simp
  · left; rw [h1.1]; rw [← hp]; simp

theorem restrictTop_eval {x : α} {f : Fm α} (w : α → Bool) :
    (restrictTop c (some ⟨x, true⟩) f).eval w = f.eval (vset w x true) := by
  have h1 : (restrictTop c (some ⟨x, true⟩) f).eval w = (restrictTop c (some ⟨x, true⟩) f).eval (vset w x true) := by
    refine Fm.eval_congr _ fun y hy => ?_
    have := (restrictTop_vars y hy).2
    simp only [vset]; rw [if_neg this]
  rw [h1]
  obtain ⟨a, ha⟩ := new_single (⟨x, true⟩ : Lit α)
  simp only [restrictTop, ha, Option.getD_some]
  exact C06_restrict ha c f _ (by simp [vset, Lit.eval])
end restrict

/-- the variables a Tseitin state may have handed out -/
def Own (aux : Nat → α) (k k' : Nat) (x : α) : Prop := ∃ n, k ≤ n ∧ n < k' ∧ x = aux n

theorem csubs_vars (f : Fm α) : ∀ g ∈ csubs f, ∀ x ∈ g.vars, x ∈ f.vars := by
  induction f using Fm.ind with
  | ha fs ih =>
    intro g hg x hx
    rw [csubs_and] at hg
    rcases List.mem_cons.1 hg with rfl | hg
    · exact hx
    · obtain ⟨f, hf, hg⟩ := List.mem_flatMap.1 hg
      simp only [Fm.vars_and, List.mem_flatMap]; exact ⟨f, hf, ih f hf g hg x hx⟩
  | ho fs ih =>
    intro g hg x hx
    rw [csubs_or] at hg
    rcases List.mem_cons.1 hg with rfl | hg
    · exact hx
    · obtain ⟨f, hf, hg⟩ := List.mem_flatMap.1 hg
      simp only [Fm.vars_or, List.mem_flatMap]; exact ⟨f, hf, ih f hf g hg x hx⟩
  | _ => intro g hg; simp [csubs] at hg

theorem self_csubs {f : Fm α} (h : cmpd f = true) : f ∈ csubs f := by
  cases f <;> simp [cmpd] at h
  · rw [csubs_and]; simp
  · rw [csubs_or]; simp

open Classical in
/-- the intended extension: every auxiliary variable gets the value of its formula -/
noncomputable def extV (s : TS α) (v : α → Bool) : α → Bool := fun x =>
  if h : ∃ g, cmpd g = true ∧ (s.fm g).isSome ∧ s.lit g = some ⟨x, true⟩ then h.choose.eval v else v x

/-- uniqueness of the auxiliary values -/
def UniqueExt (f T : Fm α) : Prop :=
  ∀ w1 w2, (∀ x ∈ f.vars, w1 x = w2 x) → T.eval w1 = true → T.eval w2 = true → ∀ x ∈ T.vars, w1 x = w2 x

section top
variable {c : Bool} {aux : Nat → α} {k0 : Nat} {s : TS α}

theorem lit_lm (hs : TInv c aux k0 s) {g : Fm α} {t : Fm α} (hc : cmpd g = true) (hg : s.fm g = some t) :
    ∃ n, k0 ≤ n ∧ n < s.cnt ∧ s.lit g = some ⟨aux n, true⟩ ∧ s.lm g = some (some ⟨aux n, true⟩) := by
  obtain ⟨n, h1, h2, h3⟩ := (hs.ent g t hc hg).lit
  exact ⟨n, h1, h2, by simp [TS.lit, h3], h3⟩

theorem extV_lit (hs : TInv c aux k0 s) {g : Fm α} (hc : cmpd g = true) (hg : (s.fm g).isSome) {x : α} (hl : s.lit g = some ⟨x, true⟩)
    (v : α → Bool) : extV s v x = g.eval v := by
  have h : ∃ g, cmpd g = true ∧ (s.fm g).isSome ∧ s.lit g = some ⟨x, true⟩ := ⟨g, hc, hg, hl⟩
  unfold extV
  rw [dif_pos h]
  have := h.choose_spec
  congr 1
  obtain ⟨t, ht⟩ := Option.isSome_iff_exists.1 hg
  obtain ⟨t', ht'⟩ := Option.isSome_iff_exists.1 this.2.1
  obtain ⟨n, _, _, e1, e2⟩ := lit_lm hs hc ht
  obtain ⟨n', _, _, e1', e2'⟩ := lit_lm hs this.1 ht'
  refine hs.inj _ _ this.1 hc this.2.1 hg ?_
  rw [e2, e2']
  rw [this.2.2] at e1'
  rw [hl] at e1
  rw [← e1', ← e1]

theorem extV_off (hs : TInv c aux k0 s) (v : α → Bool) {x : α} (hx : ¬Own aux k0 s.cnt x) : extV s v x = v x := by
  unfold extV
  rw [dif_neg]
  rintro ⟨g, h1, h2, h3⟩
  obtain ⟨t, ht⟩ := Option.isSome_iff_exists.1 h2
  obtain ⟨n, h4, h5, h6, _⟩ := lit_lm hs h1 ht
  rw [h3] at h6
  simp at h6
  exact hx ⟨n, h4, h5, h6⟩

theorem Fresh.off {f : Fm α} (hf : Fresh aux k0 f) {n : Nat} {x : α} (hx : x ∈ f.vars) : ¬Own aux k0 n x := by
  rintro ⟨m, h1, _, rfl⟩; exact hf _ hx m h1 rfl

/-- the stored formula, restricted by its literal -/
theorem entry_cnfOf (hs : TInv c aux k0 s) {g t : Fm α} (hc : cmpd g = true) (hg : s.fm g = some t) :
    CnfOf (Own aux k0 s.cnt) g (restrictTop c (s.lit g) t) ∧ UniqueExt g (restrictTop c (s.lit g) t) := by
  have E := hs.ent g t hc hg
  have hkey := keys_csubs hs g (by simp [hg])
  obtain ⟨n, h1, h2, h3, _⟩ := lit_lm hs hc hg
  have lits : ∀ h ∈ csubs g, ∃ x, s.lit h = some ⟨x, true⟩ ∧ Own aux k0 s.cnt x := by
    intro h hh
    obtain ⟨t', ht'⟩ := Option.isSome_iff_exists.1 (hkey h hh)
    obtain ⟨m, m1, m2, m3, _⟩ := lit_lm hs (csubs_cmpd g h hh) ht'
    exact ⟨aux m, m3, m, m1, m2, rfl⟩
  have Lval : ∀ h ∈ csubs g, ∀ x v, s.lit h = some ⟨x, true⟩ → L s v h = v x := by
    intro h _ x v e; simp [L, e, litFm, Lit.eval]
  have hv : ∀ x ∈ t.vars, x ∈ g.vars ∨ Own aux k0 s.cnt x := by
    intro x hx
    rcases E.vars x hx with h | ⟨h, hh, e⟩
    · exact .inl h
    · obtain ⟨y, e', hy⟩ := lits h hh
      rw [e] at e'; simp at e'; subst e'
      exact .inr hy
  have topSem : ∀ w, (restrictTop c (s.lit g) t).eval w = true → ∀ h ∈ csubs g, L s (vset w (aux n) true) h = h.eval w := by
    intro w hw h hh
    rw [h3, restrictTop_eval] at hw
    rw [(E.sem _).1 hw h hh]
    refine Fm.eval_congr _ fun y hy => ?_
    simp only [vset]
    rw [if_neg]
    rintro rfl
    exact E.fresh _ (csubs_vars g h hh _ hy) n h1 rfl
  refine ⟨⟨restrictTop_cnf E.cnf, ?_, ?_, ?_⟩, ?_⟩
  · intro w hw
    have := topSem w hw g (self_csubs hc)
    rw [← this, Lval g (self_csubs hc) _ _ h3]; simp [vset]
  · intro v hgv
    refine ⟨extV s v, fun x hx => extV_off hs v hx, ?_⟩
    have htop : extV s v (aux n) = true := by rw [extV_lit hs hc (by simp [hg]) h3]; exact hgv
    rw [h3, restrictTop_eval]
    have hset : vset (extV s v) (aux n) true = extV s v := by
      funext y; simp only [vset]; split
      · rename_i e; rw [e, htop]
      · rfl
    rw [hset, E.sem]
    intro h hh
    obtain ⟨x, e, _⟩ := lits h hh
    rw [Lval h hh x _ e, extV_lit hs (csubs_cmpd g h hh) (hkey h hh) e]
    refine Fm.eval_congr _ fun y hy => ?_
    exact (extV_off hs v (E.fresh.off (csubs_vars g h hh y hy))).symm
  · intro x hx
    rw [h3] at hx
    exact hv x (restrictTop_vars x hx).1
  · intro w1 w2 hw e1 e2 x hx
    have a1 := topSem w1 e1
    have a2 := topSem w2 e2
    rw [h3] at hx
    have hx := restrictTop_vars x hx
    rcases E.vars x hx.1 with h | ⟨h, hh, e⟩
    · exact hw x h
    · have b1 := a1 h hh
      have b2 := a2 h hh
      rw [Lval h hh x _ e] at b1 b2
      simp only [vset, if_neg hx.2] at b1 b2
      rw [b1, b2]
      exact Fm.eval_congr _ fun y hy => hw y (csubs_vars g h hh y hy)

/-- the final write into the literal map -/
theorem lmWrite_ok (hs : TInv c aux k0 s) {f g : Fm α} (h : Cnd c f → g = f) :
    TInv c aux k0 { s with lm := fupd s.lm f (some (s.lit g)) } := by
  have ex : TExt s { s with lm := fupd s.lm f (some (s.lit g)) } := by
    refine ⟨fun _ _ e => e, fun k hk => ?_, Nat.le_refl _⟩
    show fupd s.lm f (some (s.lit g)) k = s.lm k
    by_cases e : k = f
    · subst e
      obtain ⟨t, ht⟩ := Option.isSome_iff_exists.1 hk
      rw [fupd_same]
      rcases hs.shape k t ht with h1 | h1
      · obtain ⟨l, rfl⟩ := isLit_iff.1 h1
        rw [h (.lit l)]
        simp [TS.lit, (hs.lits l t ht).2]
      · rw [h (hs.ent k t h1 ht).cnd]
        obtain ⟨n, _, _, e1, e2⟩ := lit_lm hs h1 ht
        rw [e1, e2]
    · exact fupd_ne _ _ e
  refine ⟨?_, hs.shape, ?_, ?_, hs.cnt⟩
  · intro l t ht
    have := hs.lits l t ht
    exact ⟨this.1, (ex.lm _ (by simp [show s.fm (.lit l) = some t from ht])).trans this.2⟩
  · intro h t hc ht
    exact (hs.ent h t hc ht).ext hs ex (by simp [show s.fm h = some t from ht])
  · intro h h' hc hc' k1 k2 e
    refine hs.inj h h' hc hc' k1 k2 ?_
    rw [← ex.lm h k1, ← ex.lm h' k2]; exact e

/-- small formulas: same variables, equivalent -/
theorem cnfOf_equiv {A : α → Prop} {f T : Fm α} (h1 : isCNF T = true) (h2 : Fm.Equivalent T f) (h3 : ∀ x ∈ T.vars, x ∈ f.vars) :
    CnfOf A f T ∧ UniqueExt f T :=
  ⟨⟨h1, fun w hw => by rw [← h2 w]; exact hw, fun v hv => ⟨v, fun _ _ => rfl, by rw [h2 v]; exact hv⟩, fun x hx => .inl (h3 x hx)⟩,
   fun _ _ hw _ _ x hx => hw x (h3 x hx)⟩

theorem cnfOf_congr {A : α → Prop} {f g T : Fm α} (h : CnfOf A g T ∧ UniqueExt g T) (he : Fm.Equivalent g f) (hv : ∀ x ∈ g.vars, x ∈ f.vars) :
    CnfOf A f T ∧ UniqueExt f T :=
  ⟨⟨h.1.cnf, fun w hw => by rw [← he w]; exact h.1.sound w hw, fun v hf => h.1.extend v (by rw [he v]; exact hf),
    fun x hx => (h.1.vars x hx).imp (hv x) id⟩, fun w1 w2 hw => h.2 w1 w2 fun x hx => hw x (hv x hx)⟩

variable {bot : α} {enc : Fm α → Fm α}

theorem nnf_isCNF_of_not_cmpd {f : Fm α} (hp : f.pbFree = true) (hn : isCNF (nnf c enc f true) = false) :
    Cnd c (nnf c enc f true) ∧ cmpd (nnf c enc f true) = true := by
  rcases nnf_cnd (c := c) (enc := enc) f hp true with e | e | e
  · rw [e] at hn; simp [isCNF] at hn
  · rw [e] at hn; simp [isCNF] at hn
  · refine ⟨e, ?_⟩
    generalize nnf c enc f true = g at e hn
    cases e with
    | lit l => simp [isCNF, isClause] at hn
    | and => rfl
    | or => rfl

theorem factorize_all (f : Fm α) (hp : f.pbFree = true) {cache : List (Fm α × Fm α)} (h1 : CacheOK true cache) (h2 : CVars cache) :
    isCNF (factorize c true enc cache f).1 = true ∧ Fm.Equivalent (factorize c true enc cache f).1 f ∧
    (∀ x ∈ (factorize c true enc cache f).1.vars, x ∈ f.vars) ∧ CacheOK true (factorize c true enc cache f).2 ∧
    CVars (factorize c true enc cache f).2 := by
  have := C09_factorize_nop c true enc f hp cache h1
  have h3 := factRec_vars c true nopHdl enc f hp ⟨(), cache⟩ h2
  exact ⟨this.2.1, this.1, h3.2, this.2.2, h3.1⟩

/-- `TseitinCNF` in any good state -/
theorem tseitin_ok (haux : ∀ m n, aux m = aux n → m = n) (hs : TInv c aux k0 s) (boundary : Int) (f : Fm α) (hp : f.pbFree = true)
    (hf : Fresh aux k0 f) {cache : List (Fm α × Fm α)} (h1 : CacheOK true cache) (h2 : CVars cache) :
    let r := tseitinCNF c aux bot enc boundary f cache s
    TInv c aux k0 r.2.2 ∧ s.cnt ≤ r.2.2.cnt ∧ CacheOK true r.2.1 ∧ CVars r.2.1 ∧ CnfOf (Own aux k0 r.2.2.cnt) f r.1 ∧ UniqueExt f r.1 := by
  have he := C08_nnf_equivalent c enc f hp
  have hv := nnf_vin (X := (· ∈ f.vars)) (c := c) (enc := enc) f hp (fun _ h => h) true
  have hidc : Cnd c f → nnf c enc f true = f := nnf_id
  simp only [tseitinCNF]
  split
  · rename_i h
    exact ⟨hs, Nat.le_refl _, h1, h2, cnfOf_equiv h he hv⟩
  rename_i hn
  simp only [Bool.not_eq_true] at hn
  obtain ⟨hcnd, hcm⟩ := nnf_isCNF_of_not_cmpd hp hn
  split
  · rename_i t ht
    exact ⟨hs, Nat.le_refl _, h1, h2, cnfOf_congr (entry_cnfOf hs hcm ht) he hv⟩
  split
  · have hpg : (nnf c enc f true).pbFree = true := isNNF_pbFree _ (nnf_pbFree_core f hp true).isNNF
    have := factorize_all (c := c) (enc := enc) _ hpg h1 h2
    exact ⟨lmWrite_ok hs hidc, Nat.le_refl _, this.2.2.2.1, this.2.2.2.2,
      cnfOf_congr (cnfOf_equiv this.1 this.2.1 this.2.2.1) he hv⟩
  · have hbu := subNodes_bu (nnf c enc f true) hcnd.core
    have hall := subNodes_all (P := fun g => Cnd c g ∧ Fresh aux k0 g)
      (fun fs h g hg => ⟨h.1.and_inv.1 g hg, VIn.and_iff.1 h.2 g hg⟩) (fun fs h g hg => ⟨h.1.or_inv.1 g hg, VIn.or_iff.1 h.2 g hg⟩)
      (nnf c enc f true) hcnd.core ⟨hcnd, fun x hx => hf x (hv x hx)⟩
    have hl := loop_ok (bot := bot) haux hs hbu.1 hall
    obtain ⟨t, ht⟩ := Option.isSome_iff_exists.1 (hl.2.2 _ hbu.2)
    refine ⟨lmWrite_ok hl.1 hidc, hl.2.1.cnt, h1, h2, ?_⟩
    rw [ht, Option.getD_some]
    exact cnfOf_congr (entry_cnfOf hl.1 hcm ht) he hv
end top

end Verif.NF
