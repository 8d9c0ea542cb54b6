import Verif.Parser.Walk
/-! # Formulas of the factory are in the shape the parser builds -/
namespace Verif.Parser
open Verif Verif.Tree Verif.Factory

mutual
/-- the names are accepted by the grammar; in constraints, a variable is not a number -/
def namesOk : Fm String → Bool
  | .fls => true
  | .tru => true
  | .lit l => isName l.var
  | .not f => namesOk f
  | .impl l r => namesOk l && namesOk r
  | .equiv l r => namesOk l && namesOk r
  | .and fs => namesOkL fs
  | .or fs => namesOkL fs
  | .cc _ _ xs => xs.all fun x => isName x && !numeric x
  | .pbc _ _ ts => ts.all termOk
def namesOkL : List (Fm String) → Bool
  | [] => true
  | f :: fs => namesOk f && namesOkL fs
end

mutual
/-- there is no cardinality constraint `… < 0` -/
def noLt0 : Fm String → Bool
  | .fls => true
  | .tru => true
  | .lit _ => true
  | .not f => noLt0 f
  | .impl l r => noLt0 l && noLt0 r
  | .equiv l r => noLt0 l && noLt0 r
  | .and fs => noLt0L fs
  | .or fs => noLt0L fs
  | .cc c k _ => !(decide (c = .lt) && decide (k = 0))
  | .pbc _ _ _ => true
def noLt0L : List (Fm String) → Bool
  | [] => true
  | f :: fs => noLt0 f && noLt0L fs
end

theorem namesOkL_iff (fs : List (Fm String)) : namesOkL fs = true ↔ ∀ f ∈ fs, namesOk f = true := by
  induction fs with
  | nil => simp [namesOkL]
  | cons f fs ih => simp [namesOkL, ih]
theorem noLt0L_iff (fs : List (Fm String)) : noLt0L fs = true ↔ ∀ f ∈ fs, noLt0 f = true := by
  induction fs with
  | nil => simp [noLt0L]
  | cons f fs ih => simp [noLt0L, ih]

/-! ## implications, equivalences and constraints in the tables -/

/-- the constructor has nothing to simplify -/
def NodeFix (cons : Bool) : Node → Prop
  | .impl l r => l.id ≠ negId r.id ∧ (cons = false → l ≠ r)
  | .equiv l r => cons = false → l ≠ r ∧ l.id ≠ negId r.id
  | .pbc c k ts => isCC c k ts = false
  | _ => True

theorem mkVar_fix (s : Fac) (nm : String) (b : Bool) : NewOnly s (mkVar s nm).1 (NodeFix b) := by
  unfold mkVar
  split
  · exact .refl _ _
  · exact .upd rfl (by simp [NodeFix])
theorem mkLit_fix (s : Fac) (nm : String) (p : Bool) (b : Bool) : NewOnly s (mkLit s nm p).1 (NodeFix b) := by
  have h := mkVar_fix s nm b
  unfold mkLit
  generalize mkVar s nm = x at h
  obtain ⟨s1, v⟩ := x
  simp only at h ⊢
  split
  · exact h
  split
  · exact h
  · refine h.trans ?_
    split <;> exact .upd rfl (by simp [NodeFix])
theorem mkNot_fix (s : Fac) (o : H) (b : Bool) : NewOnly s (mkNot s o).1 (NodeFix b) := by
  unfold mkNot
  split
  · exact .refl _ _
  split
  · exact .refl _ _
  split
  · split <;> exact mkLit_fix _ _ _ _
  split
  · split <;> exact .refl _ _
  split
  · exact .refl _ _
  · simp only
    split <;> exact .upd rfl (by simp [NodeFix])
theorem mkImpl_fix (s : Fac) (l r : H) : NewOnly s (mkImpl s l r).1 (NodeFix s.conserve) := by
  unfold mkImpl
  split
  · exact .refl _ _
  split
  · exact .refl _ _
  split
  · exact mkNot_fix _ _ _
  rename_i h1
  split
  · exact .refl _ _
  rename_i h2
  split
  · exact .refl _ _
  · refine .upd rfl ⟨fun e => h1 (.inr e), fun hc e => h2 ⟨by simp [hc], e⟩⟩
theorem mkEquiv_fix (s : Fac) (l r : H) : NewOnly s (mkEquiv s l r).1 (NodeFix s.conserve) := by
  unfold mkEquiv
  split
  · exact .refl _ _
  split
  · exact .refl _ _
  split
  · exact mkNot_fix _ _ _
  split
  · exact mkNot_fix _ _ _
  split
  · exact .refl _ _
  rename_i h1
  split
  · exact .refl _ _
  rename_i h2
  split
  · exact .refl _ _
  · refine .upd rfl fun hc => ⟨fun e => h1 ⟨by simp [hc], e⟩, fun e => h2 ⟨by simp [hc], e⟩⟩
theorem constructCC_fix (s : Fac) (c : Cmp) (k : Int) (vs : List H) (b : Bool) : NewOnly s (constructCC s c k vs).1 (NodeFix b) := by
  unfold constructCC
  split
  · exact .refl _ _
  simp only
  split
  · exact .refl _ _
  · exact .upd rfl (by simp [NodeFix])
theorem mkPBC_fix (s : Fac) (c : Cmp) (k : Int) (vs : List (Int × H)) (b : Bool) : NewOnly s (mkPBC s c k vs).1 (NodeFix b) := by
  unfold mkPBC
  split
  · exact .refl _ _
  split
  · exact constructCC_fix _ _ _ _ _
  rename_i h
  unfold constructPBC
  split
  · exact .refl _ _
  simp only
  split
  · exact .refl _ _
  · exact .upd rfl (by simpa [NodeFix] using h)

theorem mkAnd_fix (s : Fac) (ops : List H) (b : Bool) : NewOnly s (mkAnd s ops).1 (NodeFix b) := by
  unfold mkAnd
  split
  · exact .refl _ _
  split
  · exact .refl _ _
  rename_i a ha
  split
  · exact .refl _ _
  · exact .refl _ _
  split
  · exact .refl _ _
  · obtain ⟨h, hn⟩ := newAnd_nodes s a.ops a.cnf
    exact .upd hn trivial
theorem mkOr_fix (s : Fac) (ops : List H) (b : Bool) : NewOnly s (mkOr s ops).1 (NodeFix b) := by
  unfold mkOr
  split
  · exact .refl _ _
  split
  · exact .refl _ _
  rename_i a ha
  split
  · exact .refl _ _
  · exact .refl _ _
  split
  · exact .refl _ _
  · obtain ⟨h, hn⟩ := newOr_nodes s a.ops a.cnf
    exact .upd hn trivial
theorem mkMinterm_fix (s : Fac) (ops : List H) (b : Bool) : NewOnly s (mkMinterm s ops).1 (NodeFix b) := by
  unfold mkMinterm
  split
  · exact .refl _ _
  split
  · exact .refl _ _
  · exact .refl _ _
  · obtain ⟨h, hn⟩ := newAnd_nodes s ops true
    exact .upd hn trivial
theorem mkClause_fix (s : Fac) (ops : List H) (b : Bool) : NewOnly s (mkClause s ops).1 (NodeFix b) := by
  unfold mkClause
  split
  · exact .refl _ _
  split
  · exact .refl _ _
  · exact .refl _ _
  · obtain ⟨h, hn⟩ := newOr_nodes s ops true
    exact .upd hn trivial

theorem step_fix (s : Fac) (op : Op) : NewOnly s (Factory.step s op).1 (NodeFix s.conserve) := by
  cases op with
  | var n => exact mkVar_fix s n _
  | lit n p => exact mkLit_fix s n p _
  | not o => exact mkNot_fix s o _
  | impl l r => exact mkImpl_fix s l r
  | equiv l r => exact mkEquiv_fix s l r
  | and ops => exact mkAnd_fix s ops _
  | or ops => exact mkOr_fix s ops _
  | minterm ops => exact mkMinterm_fix s ops _
  | clause ops => exact mkClause_fix s ops _
  | cc c k vs => exact constructCC_fix s c k vs _
  | pbc c k ts => exact mkPBC_fix s c k ts _
  | auxVar n => exact mkVar_fix s (n ++ toString (s.aux n)) s.conserve

/-- in every reachable state -/
theorem reach_fix {c : Bool} {s : Fac} (r : Reach c s) : ∀ h n, s.nodes h = some n → NodeFix c n := by
  induction r with
  | init => intro h n e; simp [Verif.Factory.init] at e
  | step r ok hb ih =>
    intro h n e
    rcases step_fix _ _ h n e with h1 | h1
    · exact ih h n h1
    · rw [r.cons] at h1; exact h1

/-! ## trees -/

theorem map_id_mem {fs : List (Fm String)} {g : Fm String → Fm String} (h : ∀ f ∈ fs, g f = f) : fs.map g = fs := by
  rw [List.map_congr_left h]; simp

/-- a formula of the factory is printable if its names are -/
theorem printable_den {c : Bool} {s : Fac} (r : Reach c s) (f : Fm String) : ∀ {h : H}, Den s.nodes f h → namesOk f = true → printable f = true := by
  have i := r.inv
  have last : ∀ {fs : List (Fm String)} {os : List H}, DenL s.nodes fs os → (∀ o ∈ os, (s.nodes o).isSome) → fs.getLast? ≠ some .fls := by
    intro fs os d ho e
    obtain ⟨o, h1, h2⟩ := d.mem.1 _ (List.mem_of_getLast? e)
    obtain ⟨n, hn⟩ := Option.isSome_iff_exists.1 (ho o h1)
    exact (i.core.ne_const o n hn).1 (by simpa [Den] using h2)
  induction f using Fm.ind with
  | hf => intros; rfl
  | ht => intros; rfl
  | hl l => intro h d hn; simpa only [printable, namesOk] using hn
  | hn f ih =>
    intro h d hn
    simp only [Den] at d
    obtain ⟨o, _, d⟩ := d
    simp only [printable, namesOk] at hn ⊢
    exact ih d hn
  | ha fs ih =>
    intro h d hn
    simp only [Den] at d
    obtain ⟨os, e, d⟩ := d
    have hok := i.core.ok e
    simp only [namesOk, namesOkL_iff] at hn
    simp only [printable, Bool.and_eq_true, decide_eq_true_eq, printableL_iff]
    refine ⟨⟨by rw [d.length]; exact hok.1, fun f hf => ?_⟩, last d fun o ho => (hok.2 o ho).1⟩
    obtain ⟨o, _, d'⟩ := d.mem.1 f hf
    exact ih f hf d' (hn f hf)
  | ho fs ih =>
    intro h d hn
    simp only [Den] at d
    obtain ⟨os, e, d⟩ := d
    have hok := i.core.ok e
    simp only [namesOk, namesOkL_iff] at hn
    simp only [printable, Bool.and_eq_true, decide_eq_true_eq, printableL_iff]
    refine ⟨⟨by rw [d.length]; exact hok.1, fun f hf => ?_⟩, last d fun o ho => (hok.2 o ho).1⟩
    obtain ⟨o, _, d'⟩ := d.mem.1 f hf
    exact ih f hf d' (hn f hf)
  | hi l r ihl ihr =>
    intro h d hn
    simp only [Den] at d
    obtain ⟨_, _, _, d1, d2⟩ := d
    simp only [printable, namesOk, Bool.and_eq_true] at hn ⊢
    exact ⟨ihl d1 hn.1, ihr d2 hn.2⟩
  | he l r ihl ihr =>
    intro h d hn
    simp only [Den] at d
    obtain ⟨_, _, _, d1, d2⟩ := d
    simp only [printable, namesOk, Bool.and_eq_true] at hn ⊢
    exact ⟨ihl d1 hn.1, ihr d2 hn.2⟩
  | hc c k xs =>
    intro h d hn
    simp only [Den] at d
    obtain ⟨os, e, d⟩ := d
    have hok := i.core.ok e
    simp only [printable, namesOk, Bool.and_eq_true] at hn ⊢
    refine ⟨?_, hn⟩
    cases xs with
    | nil => cases os with
      | nil => exact absurd rfl hok.1
      | cons o os => simp at d
    | cons x xs => rfl
  | hp c k ts =>
    intro h d hn
    simp only [Den] at d
    obtain ⟨os, e, d⟩ := d
    have hok := i.core.ok e
    simp only [printable, namesOk, Bool.and_eq_true] at hn ⊢
    refine ⟨?_, hn⟩
    cases ts with
    | nil => cases os with
      | nil => exact absurd rfl hok.1
      | cons o os => simp at d
    | cons x xs => rfl

/-- a formula of the factory is built anew as it is -/
theorem rebuild_den {c : Bool} {s : Fac} (r : PReach c s) (f : Fm String) : ∀ {h : H}, Den s.nodes f h → noLt0 f = true → rebuild c f = f := by
  have i := r.reach.inv
  have sh := r.shape
  have hcons := r.reach.cons
  have fx := reach_fix r.reach
  induction f using Fm.ind with
  | hf => intros; rfl
  | ht => intros; rfl
  | hl l => intros; rfl
  | hn f ih =>
    intro h d hn
    simp only [Den] at d
    obtain ⟨o, e, d⟩ := d
    have hok := i.core.ok e
    simp only [noLt0] at hn
    rw [rebuild, ih d hn]
    obtain ⟨n, hn'⟩ := Option.isSome_iff_exists.1 hok.2.1
    have hcs := i.core.ne_const o n hn'
    cases f with
    | fls => exact absurd (by simpa [Den] using d) hcs.1
    | tru => exact absurd (by simpa [Den] using d) hcs.2
    | lit l => simp only [Den] at d; exact absurd (i.core.sort d).symm hok.2.2.1
    | not g => simp only [Den] at d; obtain ⟨o', d, _⟩ := d; exact absurd (i.core.sort d).symm hok.2.2.2
    | _ => rfl
  | ha fs ih =>
    intro h d hn
    simp only [Den] at d
    obtain ⟨os, e, d⟩ := d
    have hok := i.core.ok e
    simp only [noLt0, noLt0L_iff] at hn
    rw [rebuild_and, map_id_mem fun f hf => by obtain ⟨o, _, d'⟩ := d.mem.1 f hf; exact ih f hf d' (hn f hf)]
    have hd := sh.1 _ _ e
    rw [hcons] at hd
    refine tAnd_fix (hd.tree i.core d) (by rw [d.length]; exact hok.1) fun f hf => ?_
    obtain ⟨o, ho, dO⟩ := d.mem.1 f hf
    have hk := hok.2 o ho
    obtain ⟨n, hn⟩ := Option.isSome_iff_exists.1 hk.1
    have hc := i.core.ne_const o n hn
    refine ⟨fun e => hc.2 ((dO.eq_tru i.core).1 e), fun e => hc.1 ((dO.eq_fls i.core).1 e), ?_⟩
    rintro gs rfl
    simp only [Den] at dO
    obtain ⟨os, h1, _⟩ := dO
    exact hk.2.2 (i.core.sort h1).symm
  | ho fs ih =>
    intro h d hn
    simp only [Den] at d
    obtain ⟨os, e, d⟩ := d
    have hok := i.core.ok e
    simp only [noLt0, noLt0L_iff] at hn
    rw [rebuild_or, map_id_mem fun f hf => by obtain ⟨o, _, d'⟩ := d.mem.1 f hf; exact ih f hf d' (hn f hf)]
    have hd := sh.2 _ _ e
    rw [hcons] at hd
    refine tOr_fix (hd.tree i.core d) (by rw [d.length]; exact hok.1) fun f hf => ?_
    obtain ⟨o, ho, dO⟩ := d.mem.1 f hf
    have hk := hok.2 o ho
    obtain ⟨n, hn⟩ := Option.isSome_iff_exists.1 hk.1
    have hc := i.core.ne_const o n hn
    refine ⟨fun e => hc.1 ((dO.eq_fls i.core).1 e), fun e => hc.2 ((dO.eq_tru i.core).1 e), ?_⟩
    rintro gs rfl
    simp only [Den] at dO
    obtain ⟨os, h1, _⟩ := dO
    exact hk.2.2 (i.core.sort h1).symm
  | hi f g ihl ihr =>
    intro h d hn
    simp only [Den] at d
    obtain ⟨l, r, e, d1, d2⟩ := d
    have hok := i.core.ok e
    have hfx := fx _ _ e
    simp only [noLt0, Bool.and_eq_true] at hn
    rw [rebuild, ihl d1 hn.1, ihr d2 hn.2]
    unfold tImpl
    simp only [d1.eq_fls i.core, d1.eq_tru i.core, d2.eq_tru i.core, d2.eq_fls i.core, Den.compl_iff i.core d1 d2, Den.eq_iff i.core d1 d2]
    obtain ⟨_, _, _, _, h1, h2, h3, h4⟩ := hok
    rw [if_neg, if_neg, if_neg, if_neg]
    · rintro ⟨hc, e⟩; exact hfx.2 (by simpa using hc) e
    · rintro (e | e)
      · exact h3 (by rw [e]; rfl)
      · exact hfx.1 e
    · intro e; exact h2 (by rw [e]; rfl)
    · rintro (e | e)
      · exact h1 (by rw [e]; rfl)
      · exact h4 (by rw [e]; rfl)
  | he f g ihl ihr =>
    intro h d hn
    simp only [Den] at d
    obtain ⟨l, r, e, d1, d2⟩ := d
    have hok := i.core.ok e
    have hfx := fx _ _ e
    simp only [noLt0, Bool.and_eq_true] at hn
    rw [rebuild, ihl d1 hn.1, ihr d2 hn.2]
    unfold tEquiv
    simp only [d1.eq_fls i.core, d1.eq_tru i.core, d2.eq_tru i.core, d2.eq_fls i.core, Den.compl_iff i.core d1 d2, Den.eq_iff i.core d1 d2]
    obtain ⟨_, _, _, _, h1, h2, h3, h4⟩ := hok
    rw [if_neg, if_neg, if_neg, if_neg, if_neg, if_neg]
    · rintro ⟨hc, e⟩; exact (hfx (by simpa using hc)).2 e
    · rintro ⟨hc, e⟩; exact (hfx (by simpa using hc)).1 e
    · intro e; exact h3 (by rw [e]; rfl)
    · intro e; exact h1 (by rw [e]; rfl)
    · intro e; exact h4 (by rw [e]; rfl)
    · intro e; exact h2 (by rw [e]; rfl)
  | hc c k xs =>
    intro h d hn
    simp only [Den] at d
    obtain ⟨os, e, d⟩ := d
    have hok := i.core.ok e
    simp only [noLt0, Bool.not_eq_true', Bool.and_eq_false_iff, decide_eq_false_iff_not] at hn
    have hne : xs ≠ [] := by
      rintro rfl
      cases os with
      | nil => exact hok.1 rfl
      | cons o os => simp at d
    rw [rebuild]
    unfold tPBC
    rw [if_neg (by simpa using hne), if_pos]
    · simp [Function.comp_def]
    · have hk := hok.2.1
      unfold tIsCC
      simp only [List.all_map, Bool.and_eq_true]
      refine ⟨⟨by simp [Function.comp_def], by simp [Function.comp_def]⟩, ?_⟩
      cases c <;> simp_all
      omega
  | hp c k ts =>
    intro h d hn
    simp only [Den] at d
    obtain ⟨os, e, d⟩ := d
    have hok := i.core.ok e
    have hfx : isCC c k os = false := fx _ _ e
    have hne : ts ≠ [] := by
      rintro rfl
      cases os with
      | nil => exact hok.1 rfl
      | cons o os => simp at d
    rw [rebuild]
    unfold tPBC
    rw [if_neg (by simpa using hne), if_neg]
    rw [← isCC_tree i.core c k d, hfx]
    simp

end Verif.Parser
