import Verif.NormalForm.TseitinTop
/-! Correctness of the Plaisted-Greenbaum transformation. -/
set_option linter.unusedSectionVars false
namespace Verif.NF
open Verif Verif.Tree Verif.Spec Verif.Assignment
variable {α : Type} [DecidableEq α]

/-- the keys that matter: condensed compound formulas -/
def PK (c : Bool) (h : Fm α) : Prop := Cnd c h ∧ cmpd h = true

/-- truth value of the literal of `f` -/
def PL (s : TS α) (v : α → Bool) : Fm α → Bool
  | .lit l => l.eval v
  | f => (litFm (s.lit f)).eval v

/-- the one-directional definition of the literal of `h` -/
def PDef (s : TS α) (v : α → Bool) (h : Fm α) : Prop :=
  PL s v h = true → (match h with
    | .and fs => fs.all (PL s v)
    | .or fs => fs.any (PL s v)
    | _ => true) = true

/-- the variable of the literal of `f` -/
def PVar (s : TS α) (f : Fm α) (x : α) : Prop :=
  match f with
  | .lit l => x = l.var
  | f => s.lit f = some ⟨x, true⟩

structure PEntry (s : TS α) (h t : Fm α) : Prop where
  key : (s.lm h).isSome
  keys : ∀ o ∈ nops h, cmpd o = true → (s.lm o).isSome
  sem : ∀ v, t.eval v = true ↔ PDef s v h
  cnf : isCNF t = true
  vars : ∀ x ∈ t.vars, PVar s h x ∨ ∃ o ∈ nops h, PVar s o x

structure PInv (c : Bool) (aux : Nat → α) (k0 : Nat) (s : TS α) : Prop where
  lit : ∀ h x, PK c h → s.lm h = some x → ∃ n, k0 ≤ n ∧ n < s.cnt ∧ x = some ⟨aux n, true⟩
  inj : ∀ h h', PK c h → PK c h' → (s.lm h).isSome → s.lm h = s.lm h' → h = h'
  ent : ∀ h t, PK c h → s.fm h = some t → PEntry s h t
  cnt : k0 ≤ s.cnt

structure PExt (c : Bool) (s s' : TS α) : Prop where
  lm : ∀ h, PK c h → (s.lm h).isSome → s'.lm h = s.lm h
  cnt : s.cnt ≤ s'.cnt

theorem PExt.refl (c : Bool) (s : TS α) : PExt c s s := ⟨fun _ _ _ => rfl, Nat.le_refl _⟩
theorem PExt.isSome {c : Bool} {s s' : TS α} (e : PExt c s s') {h : Fm α} (hk : PK c h) (hs : (s.lm h).isSome) : (s'.lm h).isSome := by
  rw [e.lm h hk hs]; exact hs
theorem PExt.trans {c : Bool} {s s1 s2 : TS α} (a : PExt c s s1) (b : PExt c s1 s2) : PExt c s s2 :=
  ⟨fun h hk hs => (b.lm h hk (a.isSome hk hs)).trans (a.lm h hk hs), Nat.le_trans a.cnt b.cnt⟩

theorem pInv_new (c : Bool) (aux : Nat → α) (k0 : Nat) : PInv c aux k0 (.new k0) :=
  ⟨by simp [TS.new], by simp [TS.new], by simp [TS.new], Nat.le_refl _⟩

theorem Cnd.nops {c : Bool} {h : Fm α} (hc : Cnd c h) : ∀ o ∈ nops h, Cnd c o := by
  cases h with
  | and fs => exact hc.and_inv.1
  | or fs => exact hc.or_inv.1
  | _ => simp [NF.nops]

theorem Cnd.cmpd_or_lit {c : Bool} {h : Fm α} (hc : Cnd c h) : cmpd h = true ∨ ∃ l, h = .lit l := by
  cases hc with
  | lit l => exact .inr ⟨l, rfl⟩
  | and => exact .inl rfl
  | or => exact .inl rfl

theorem PL_ext {c : Bool} {s s' : TS α} (e : PExt c s s') {h : Fm α} (hc : Cnd c h) (hs : cmpd h = true → (s.lm h).isSome) (v : α → Bool) :
    PL s' v h = PL s v h := by
  rcases hc.cmpd_or_lit with h1 | ⟨l, rfl⟩
  · have := e.lm h ⟨hc, h1⟩ (hs h1)
    cases h <;> simp [cmpd] at h1 <;> simp [PL, TS.lit, this]
  · rfl
theorem PVar_ext {c : Bool} {s s' : TS α} (e : PExt c s s') {h : Fm α} (hc : Cnd c h) (hs : cmpd h = true → (s.lm h).isSome) (x : α) :
    PVar s' h x ↔ PVar s h x := by
  rcases hc.cmpd_or_lit with h1 | ⟨l, rfl⟩
  · have := e.lm h ⟨hc, h1⟩ (hs h1)
    cases h <;> simp [cmpd] at h1 <;> simp [PVar, TS.lit, this]
  · rfl
theorem PDef_ext {c : Bool} {s s' : TS α} (e : PExt c s s') {h : Fm α} (hk : PK c h) (hs : (s.lm h).isSome)
    (ho : ∀ o ∈ nops h, cmpd o = true → (s.lm o).isSome) (v : α → Bool) : PDef s' v h ↔ PDef s v h := by
  unfold PDef
  rw [PL_ext e hk.1 (fun _ => hs)]
  cases h with
  | and fs =>
    have : fs.all (PL s' v) = fs.all (PL s v) := by
      rw [Bool.eq_iff_iff, List.all_eq_true, List.all_eq_true]
      exact forall₂_congr fun o h => by rw [PL_ext e (hk.1.nops o h) (ho o h)]
    simp only [this]
  | or fs =>
    have : fs.any (PL s' v) = fs.any (PL s v) := by
      rw [Bool.eq_iff_iff, List.any_eq_true, List.any_eq_true]
      exact exists_congr fun o => and_congr_right fun h => by rw [PL_ext e (hk.1.nops o h) (ho o h)]
    simp only [this]
  | _ => simp

theorem PEntry.ext {c : Bool} {s s' : TS α} (e : PExt c s s') {h t : Fm α} (hk : PK c h) (E : PEntry s h t) : PEntry s' h t where
  key := e.isSome hk E.key
  keys := fun o ho hc => e.isSome ⟨hk.1.nops o ho, hc⟩ (E.keys o ho hc)
  sem := fun v => (E.sem v).trans (PDef_ext e hk E.key E.keys v).symm
  cnf := E.cnf
  vars := fun x hx => (E.vars x hx).imp (PVar_ext e hk.1 (fun _ => E.key) x).2
    fun ⟨o, ho, h1⟩ => ⟨o, ho, (PVar_ext e (hk.1.nops o ho) (E.keys o ho) x).2 h1⟩

section step
variable {c : Bool} {aux : Nat → α} {bot : α} {k0 : Nat} {s : TS α}

/-- `pgVariable` -/
theorem pgVariable_ok (haux : ∀ m n, aux m = aux n → m = n) (hs : PInv c aux k0 s) {f : Fm α} (hf : Cnd c f) :
    PInv c aux k0 (pgVariable aux f s).2 ∧ PExt c s (pgVariable aux f s).2 ∧ (cmpd f = true → ((pgVariable aux f s).2.lm f).isSome) ∧
    (∃ l, (pgVariable aux f s).1 = some l ∧ (∀ v, l.eval v = PL (pgVariable aux f s).2 v f) ∧ PVar (pgVariable aux f s).2 f l.var ∧
      (cmpd f = true → l.pos = true)) ∧ (pgVariable aux f s).2.fm = s.fm := by
  rcases hf.cmpd_or_lit with h1 | ⟨l, rfl⟩
  · have hk : PK c f := ⟨hf, h1⟩
    have eq : pgVariable aux f s = match s.lm f with
      | some l => (l, s)
      | none => (some ⟨aux s.cnt, true⟩, { s with cnt := s.cnt + 1, lm := fupd s.lm f (some (some ⟨aux s.cnt, true⟩)) }) := by
      cases f <;> simp [cmpd] at h1 <;> rfl
    have hPL : ∀ (s' : TS α) v, PL s' v f = (litFm (s'.lit f)).eval v := by
      intro s' v; cases f <;> simp [cmpd] at h1 <;> rfl
    have hPV : ∀ (s' : TS α) x, PVar s' f x ↔ s'.lit f = some ⟨x, true⟩ := by
      intro s' v; cases f <;> simp [cmpd] at h1 <;> rfl
    cases hl : s.lm f with
    | some x =>
      rw [eq, hl]
      obtain ⟨n, h2, h3, rfl⟩ := hs.lit f x hk hl
      refine ⟨hs, .refl c s, fun _ => by simp [hl], ⟨⟨aux n, true⟩, rfl, ?_, ?_, fun _ => rfl⟩, rfl⟩
      · intro v; rw [hPL]; simp [TS.lit, hl, litFm]
      · rw [hPV]; simp [TS.lit, hl]
    | none =>
      rw [eq, hl]
      have hne : ∀ {g : Fm α}, (s.lm g).isSome → g ≠ f := fun hg e => by rw [e, hl] at hg; simp at hg
      have ex : PExt c s { s with cnt := s.cnt + 1, lm := fupd s.lm f (some (some ⟨aux s.cnt, true⟩)) } :=
        ⟨fun h _ hh => fupd_ne _ _ (hne hh), Nat.le_succ _⟩
      refine ⟨⟨?_, ?_, ?_, Nat.le_succ_of_le hs.cnt⟩, ex, fun _ => by simp [fupd], ⟨⟨aux s.cnt, true⟩, rfl, ?_, ?_, fun _ => rfl⟩, rfl⟩
      · intro h x hh e
        by_cases e2 : h = f
        · subst e2
          simp only [fupd_same, Option.some.injEq] at e
          exact ⟨s.cnt, hs.cnt, Nat.lt_succ_self _, e.symm⟩
        · simp only [fupd_ne _ _ e2] at e
          obtain ⟨n, a, b, d⟩ := hs.lit h x hh e
          exact ⟨n, a, Nat.lt_succ_of_lt b, d⟩
      · intro h h' hh hh' k1 e
        by_cases e2 : h = f
        · by_cases e3 : h' = f
          · rw [e2, e3]
          · subst e2
            simp only [fupd_same, fupd_ne _ _ e3] at e
            obtain ⟨n, a, b, d⟩ := hs.lit h' _ hh' e.symm
            simp at d; have := haux _ _ d; omega
        · by_cases e3 : h' = f
          · subst e3
            simp only [fupd_same, fupd_ne _ _ e2] at e
            obtain ⟨n, a, b, d⟩ := hs.lit h _ hh e
            simp at d; have := haux _ _ d; omega
          · simp only [fupd_ne _ _ e2, fupd_ne _ _ e3] at k1 e
            exact hs.inj h h' hh hh' k1 e
      · intro h t hh ht; exact (hs.ent h t hh ht).ext ex hh
      · intro v; rw [hPL]; simp [TS.lit, fupd, litFm]
      · rw [hPV]; simp [TS.lit, fupd]
  · exact ⟨hs, .refl c s, by simp [cmpd], ⟨l, rfl, fun _ => rfl, rfl, by simp [cmpd]⟩, rfl⟩

/-- what the list of literals for the operands must satisfy, in every later state -/
def OpsOK (c : Bool) (s : TS α) (fs : List (Fm α)) (ls : List (Option (Lit α))) : Prop :=
  List.Forall₂ (fun f l => ∃ k : Lit α, l = some k ∧ (∀ v, k.eval v = PL s v f) ∧ PVar s f k.var) fs ls

theorem OpsOK.ext {c : Bool} {s s' : TS α} (e : PExt c s s') {fs : List (Fm α)} {ls : List (Option (Lit α))} (hc : ∀ f ∈ fs, Cnd c f)
    (hk : ∀ f ∈ fs, cmpd f = true → (s.lm f).isSome) (h : OpsOK c s fs ls) : OpsOK c s' fs ls := by
  induction h with
  | nil => exact .nil
  | @cons f l fs ls h1 _ ih =>
    obtain ⟨k, e1, e2, e3⟩ := h1
    have hcf := hc f (by simp)
    have hkf := hk f (by simp)
    exact .cons ⟨k, e1, fun v => (e2 v).trans (PL_ext e hcf hkf v).symm, (PVar_ext e hcf hkf _).2 e3⟩
      (ih (fun f h => hc f (by simp [h])) (fun f h => hk f (by simp [h])))

theorem pgVars_ok (haux : ∀ m n, aux m = aux n → m = n) : ∀ (fs : List (Fm α)) (s : TS α), PInv c aux k0 s → (∀ f ∈ fs, Cnd c f) →
    PInv c aux k0 (pgVars aux fs s).2 ∧ PExt c s (pgVars aux fs s).2 ∧ (∀ f ∈ fs, cmpd f = true → ((pgVars aux fs s).2.lm f).isSome) ∧
    OpsOK c (pgVars aux fs s).2 fs (pgVars aux fs s).1 ∧ (pgVars aux fs s).2.fm = s.fm
  | [], s, hs, _ => ⟨hs, .refl c s, by simp, .nil, rfl⟩
  | f :: fs, s, hs, hf => by
    obtain ⟨a1, a2, a3, ⟨l, a4, a5, a6, _⟩, a7⟩ := pgVariable_ok haux hs (hf f (by simp))
    obtain ⟨b1, b2, b3, b4, b5⟩ := pgVars_ok haux fs _ a1 (fun g hg => hf g (by simp [hg]))
    have hcf := hf f (by simp)
    refine ⟨b1, a2.trans b2, ?_, ?_, b5.trans a7⟩
    · intro g hg hc
      rcases List.mem_cons.1 hg with rfl | hg
      · exact b2.isSome ⟨hcf, hc⟩ (a3 hc)
      · exact b3 g hg hc
    · exact .cons ⟨l, a4, fun v => (a5 v).trans (PL_ext b2 hcf a3 v).symm, (PVar_ext b2 hcf a3 _).2 a6⟩ b4

theorem opsOK_all {s : TS α} {fs : List (Fm α)} {ls : List (Option (Lit α))} (h : OpsOK c s fs ls) (v : α → Bool) :
    ls.all (fun l => (litFm l).eval v) = fs.all (PL s v) ∧ ls.any (fun l => (litFm l).eval v) = fs.any (PL s v) := by
  induction h with
  | nil => simp
  | cons h1 _ ih =>
    obtain ⟨k, rfl, e2, _⟩ := h1
    have hl : litFm (some k) = .lit k := rfl
    simp [hl, e2, ih.1, ih.2]
theorem opsOK_mem {s : TS α} {fs : List (Fm α)} {ls : List (Option (Lit α))} (h : OpsOK c s fs ls) :
    ∀ l ∈ ls, ∃ k : Lit α, l = some k ∧ ∃ f ∈ fs, PVar s f k.var := by
  induction h with
  | nil => simp
  | cons h1 _ ih =>
    obtain ⟨k, e1, _, e3⟩ := h1
    intro l hl
    rcases List.mem_cons.1 hl with rfl | hl
    · exact ⟨k, e1, _, by simp, e3⟩
    · obtain ⟨k, e1, f, hf, e3⟩ := ih l hl
      exact ⟨k, e1, f, by simp [hf], e3⟩

theorem clauseFm_eval (v : α → Bool) (fs : List (Fm α)) : (clauseFm fs).eval v = fs.any (Fm.eval v) := by
  unfold clauseFm; split <;> simp
theorem clauseFm_clause {fs : List (Fm α)} (h : ∀ f ∈ fs, isLit f = true) (hn : fs ≠ []) : isClause (clauseFm fs) = true := by
  unfold clauseFm; split
  · simp at hn
  · rename_i g; obtain ⟨l, rfl⟩ := isLit_iff.1 (h g (by simp)); rfl
  · simpa [isClause] using h
theorem clauseFm_vars {fs : List (Fm α)} : ∀ x ∈ (clauseFm fs).vars, ∃ f ∈ fs, x ∈ f.vars := by
  unfold clauseFm; split <;> simp
theorem isCNF_of_clause {f : Fm α} (h : isClause f = true) : isCNF f = true := by
  cases f <;> simp [isClause] at h <;> simpa [isCNF, isClause] using h

/-- storing a formula with its definition -/
theorem fmWrite_ok (hs : PInv c aux k0 s) {h t : Fm α} (E : PEntry s h t) : PInv c aux k0 { s with fm := fupd s.fm h (some t) } := by
  refine ⟨hs.lit, hs.inj, ?_, hs.cnt⟩
  have e : PExt c s { s with fm := fupd s.fm h (some t) } := ⟨fun _ _ _ => rfl, Nat.le_refl _⟩
  intro g u hg hu
  by_cases e2 : g = h
  · subst e2; simp only [fupd_same, Option.some.injEq] at hu; subst hu; exact E.ext e hg
  · simp only [fupd_ne _ _ e2] at hu; exact (hs.ent g u hg hu).ext e hg

/-- `computePosPolarity` -/
theorem computePos_ok (haux : ∀ m n, aux m = aux n → m = n) (hs : PInv c aux k0 s) {h : Fm α} (hk : PK c h) :
    PInv c aux k0 (computePos c aux bot h s).2 ∧ PExt c s (computePos c aux bot h s).2 ∧
    PEntry (computePos c aux bot h s).2 h (computePos c aux bot h s).1 := by
  unfold computePos
  cases hm : s.fm h with
  | some r => exact ⟨hs, .refl c s, hs.ent h r hk hm⟩
  | none =>
    obtain ⟨a1, a2, a3, ⟨l, a4, a5, a6, _⟩, a7⟩ := pgVariable_ok haux hs hk.1
    have a3 := a3 hk.2
    simp only
    cases h with
    | and fs =>
      obtain ⟨b1, b2, b3, b4, b5⟩ := pgVars_ok haux fs _ a1 hk.1.and_inv.1
      have E : PEntry (pgVars aux fs (pgVariable aux (.and fs) s).2).2 (.and fs)
          (tAnd c ((pgVars aux fs (pgVariable aux (.and fs) s).2).1.map (fun l => clauseFm [negFm bot (pgVariable aux (.and fs) s).1, litFm l]))) := by
        refine ⟨b2.isSome hk a3, b3, ?_, ?_, ?_⟩
        · intro v
          rw [eval_tAnd, List.all_map]
          have e1 : l.eval v = PL (pgVars aux fs (pgVariable aux (.and fs) s).2).2 v (.and fs) :=
            (a5 v).trans (PL_ext b2 hk.1 (fun _ => a3) v).symm
          have e2 : (Fm.eval v ∘ fun q => clauseFm [negFm bot (pgVariable aux (.and fs) s).1, litFm q]) = fun q => !l.eval v || (litFm q).eval v := by
            funext q; simp [clauseFm_eval, a4, negFm]
          rw [e2]
          unfold PDef
          rw [← e1]
          simp only [← (opsOK_all b4 v).1]
          cases l.eval v <;> simp
        · refine isCNF_tAnd ?_
          simp only [List.mem_map]
          rintro _ ⟨q, hq, rfl⟩
          obtain ⟨k, rfl, _⟩ := opsOK_mem b4 q hq
          exact isCNF_of_clause (clauseFm_clause (by simp [a4, negFm, litFm, isLit]) (by simp))
        · refine VIn.tAnd (X := fun x => PVar (pgVars aux fs (pgVariable aux (.and fs) s).2).2 (.and fs) x ∨
            ∃ o ∈ fs, PVar (pgVars aux fs (pgVariable aux (.and fs) s).2).2 o x) ?_
          simp only [List.mem_map]
          rintro _ ⟨q, hq, rfl⟩ x hx
          obtain ⟨k, rfl, o, ho, e⟩ := opsOK_mem b4 q hq
          obtain ⟨g, hg, hx⟩ := clauseFm_vars x hx
          simp only [a4, negFm, litFm, List.mem_cons, List.not_mem_nil, or_false] at hg
          rcases hg with rfl | rfl
          · simp [Lit.neg] at hx; subst hx; exact .inl ((PVar_ext b2 hk.1 (fun _ => a3) _).2 a6)
          · simp at hx; subst hx; exact .inr ⟨o, ho, e⟩
      have ex : PExt c (pgVars aux fs (pgVariable aux (.and fs) s).2).2 { (pgVars aux fs (pgVariable aux (.and fs) s).2).2 with
        fm := fupd (pgVars aux fs (pgVariable aux (.and fs) s).2).2.fm (.and fs) (some
          (tAnd c ((pgVars aux fs (pgVariable aux (.and fs) s).2).1.map (fun l => clauseFm [negFm bot (pgVariable aux (.and fs) s).1, litFm l])))) } :=
        ⟨fun _ _ _ => rfl, Nat.le_refl _⟩
      exact ⟨fmWrite_ok b1 E, (a2.trans b2).trans ex, E.ext ex hk⟩
    | or fs =>
      obtain ⟨b1, b2, b3, b4, b5⟩ := pgVars_ok haux fs _ a1 hk.1.or_inv.1
      have E : PEntry (pgVars aux fs (pgVariable aux (.or fs) s).2).2 (.or fs)
          (clauseFm (negFm bot (pgVariable aux (.or fs) s).1 :: (pgVars aux fs (pgVariable aux (.or fs) s).2).1.map litFm)) := by
        refine ⟨b2.isSome hk a3, b3, ?_, ?_, ?_⟩
        · intro v
          have e1 : l.eval v = PL (pgVars aux fs (pgVariable aux (.or fs) s).2).2 v (.or fs) :=
            (a5 v).trans (PL_ext b2 hk.1 (fun _ => a3) v).symm
          rw [clauseFm_eval, List.any_cons, List.any_map, a4]
          have e2 : (Fm.eval v ∘ litFm) = fun q => (litFm q).eval v := rfl
          rw [e2, (opsOK_all b4 v).2]
          unfold PDef
          rw [← e1]
          simp only [negFm, Fm.eval_lit, Lit.eval_neg]
          cases l.eval v <;> simp
        · refine isCNF_of_clause (clauseFm_clause ?_ (by simp))
          simp only [List.mem_cons, List.mem_map]
          rintro _ (rfl | ⟨q, hq, rfl⟩)
          · rw [a4]; rfl
          · obtain ⟨k, rfl, _⟩ := opsOK_mem b4 q hq; rfl
        · intro x hx
          obtain ⟨g, hg, hx⟩ := clauseFm_vars x hx
          simp only [List.mem_cons, List.mem_map] at hg
          rcases hg with rfl | ⟨q, hq, rfl⟩
          · rw [a4] at hx
            simp [negFm, Lit.neg] at hx; subst hx; exact .inl ((PVar_ext b2 hk.1 (fun _ => a3) _).2 a6)
          · obtain ⟨k, rfl, o, ho, e⟩ := opsOK_mem b4 q hq
            simp [litFm] at hx; subst hx; exact .inr ⟨o, ho, e⟩
      have ex : PExt c (pgVars aux fs (pgVariable aux (.or fs) s).2).2 { (pgVars aux fs (pgVariable aux (.or fs) s).2).2 with
        fm := fupd (pgVars aux fs (pgVariable aux (.or fs) s).2).2.fm (.or fs) (some
          (clauseFm (negFm bot (pgVariable aux (.or fs) s).1 :: (pgVars aux fs (pgVariable aux (.or fs) s).2).1.map litFm))) } :=
        ⟨fun _ _ _ => rfl, Nat.le_refl _⟩
      exact ⟨fmWrite_ok b1 E, (a2.trans b2).trans ex, E.ext ex hk⟩
    | _ => simp [PK, cmpd] at hk

/-- the transformed formula: all definitions of the compound sub-formulas, with respect to the literals of any later state -/
structure TransOK (c : Bool) (s : TS α) (f R : Fm α) : Prop where
  keys : ∀ g ∈ csubs f, (s.lm g).isSome
  okeys : ∀ g ∈ csubs f, ∀ o ∈ nops g, cmpd o = true → (s.lm o).isSome
  sem : ∀ v, R.eval v = true ↔ ∀ g ∈ csubs f, PDef s v g
  cnf : isCNF R = true
  vars : ∀ x ∈ R.vars, ∃ g ∈ csubs f, PVar s g x ∨ ∃ o ∈ nops g, PVar s o x

theorem csubs_pk {f : Fm α} (hf : Cnd c f) : ∀ g ∈ csubs f, PK c g := by
  induction hf with
  | lit l => simp
  | @and fs h1 h2 h3 h4 h5 ih =>
    intro g hg
    rw [csubs_and] at hg
    rcases List.mem_cons.1 hg with rfl | hg
    · exact ⟨.and h1 h2 h3 h4 h5, rfl⟩
    · obtain ⟨f, hf, hg⟩ := List.mem_flatMap.1 hg; exact ih f hf g hg
  | @or fs h1 h2 h3 h4 h5 ih =>
    intro g hg
    rw [csubs_or] at hg
    rcases List.mem_cons.1 hg with rfl | hg
    · exact ⟨.or h1 h2 h3 h4 h5, rfl⟩
    · obtain ⟨f, hf, hg⟩ := List.mem_flatMap.1 hg; exact ih f hf g hg

theorem TransOK.ext {s s' : TS α} (e : PExt c s s') {f R : Fm α} (hf : Cnd c f) (T : TransOK c s f R) : TransOK c s' f R where
  keys := fun g hg => e.isSome (csubs_pk hf g hg) (T.keys g hg)
  okeys := fun g hg o ho hc => e.isSome ⟨(csubs_pk hf g hg).1.nops o ho, hc⟩ (T.okeys g hg o ho hc)
  sem := fun v => (T.sem v).trans (forall₂_congr fun g hg => (PDef_ext e (csubs_pk hf g hg) (T.keys g hg) (T.okeys g hg) v).symm)
  cnf := T.cnf
  vars := fun x hx => by
    obtain ⟨g, hg, h⟩ := T.vars x hx
    refine ⟨g, hg, h.imp (PVar_ext e (csubs_pk hf g hg).1 (fun _ => T.keys g hg) x).2 ?_⟩
    rintro ⟨o, ho, h⟩
    exact ⟨o, ho, (PVar_ext e ((csubs_pk hf g hg).1.nops o ho) (T.okeys g hg o ho) x).2 h⟩

/-- list version -/
structure TransLOK (c : Bool) (s : TS α) (fs Rs : List (Fm α)) : Prop where
  keys : ∀ f ∈ fs, ∀ g ∈ csubs f, (s.lm g).isSome
  okeys : ∀ f ∈ fs, ∀ g ∈ csubs f, ∀ o ∈ nops g, cmpd o = true → (s.lm o).isSome
  sem : ∀ v, Rs.all (Fm.eval v) = true ↔ ∀ f ∈ fs, ∀ g ∈ csubs f, PDef s v g
  cnf : ∀ R ∈ Rs, isCNF R = true
  vars : ∀ R ∈ Rs, ∀ x ∈ R.vars, ∃ f ∈ fs, ∃ g ∈ csubs f, PVar s g x ∨ ∃ o ∈ nops g, PVar s o x

theorem transL_ok (fs : List (Fm α)) (s : TS α) (hs : PInv c aux k0 s) (hc : ∀ f ∈ fs, Cnd c f)
    (ih : ∀ f ∈ fs, ∀ s, PInv c aux k0 s → PInv c aux k0 (computeTransformation c aux bot f s).2 ∧
      PExt c s (computeTransformation c aux bot f s).2 ∧ TransOK c (computeTransformation c aux bot f s).2 f (computeTransformation c aux bot f s).1) :
    PInv c aux k0 (computeTransformationL c aux bot fs s).2 ∧ PExt c s (computeTransformationL c aux bot fs s).2 ∧
      TransLOK c (computeTransformationL c aux bot fs s).2 fs (computeTransformationL c aux bot fs s).1 := by
  induction fs generalizing s with
  | nil => rw [computeTransformationL]; exact ⟨hs, .refl c s, ⟨by simp, by simp, by simp, by simp, by simp⟩⟩
  | cons f fs ih2 =>
    obtain ⟨a1, a2, a3⟩ := ih f (by simp) s hs
    obtain ⟨b1, b2, b3⟩ := ih2 _ a1 (fun f h => hc f (by simp [h])) (fun f h => ih f (by simp [h]))
    have a3 := a3.ext b2 (hc f (by simp))
    rw [computeTransformationL]
    refine ⟨b1, a2.trans b2, ?_, ?_, ?_, ?_, ?_⟩
    · rintro k hk; rcases List.mem_cons.1 hk with rfl | hk
      · exact a3.keys
      · exact b3.keys k hk
    · rintro k hk; rcases List.mem_cons.1 hk with rfl | hk
      · exact a3.okeys
      · exact b3.okeys k hk
    · intro v
      rw [List.all_cons, Bool.and_eq_true, a3.sem, b3.sem, List.forall_mem_cons]
    · rintro k hk; rcases List.mem_cons.1 hk with rfl | hk
      · exact a3.cnf
      · exact b3.cnf k hk
    · rintro k hk x hx; rcases List.mem_cons.1 hk with rfl | hk
      · exact ⟨f, by simp, a3.vars x hx⟩
      · obtain ⟨g, hg, h⟩ := b3.vars k hk x hx; exact ⟨g, by simp [hg], h⟩

theorem trans_combine {s s' : TS α} {h t : Fm α} (hk : PK c h) (e : PExt c s s') (E : PEntry s h t) {Rs : List (Fm α)}
    (T : TransLOK c s' (nops h) Rs) (hcs : ∀ g, g ∈ csubs h ↔ g = h ∨ ∃ f ∈ nops h, g ∈ csubs f) : TransOK c s' h (tAnd c (t :: Rs)) := by
  have E := E.ext e hk
  refine ⟨?_, ?_, ?_, ?_, ?_⟩
  · intro g hg; rcases (hcs g).1 hg with rfl | ⟨f, hf, hg⟩
    · exact E.key
    · exact T.keys f hf g hg
  · intro g hg; rcases (hcs g).1 hg with rfl | ⟨f, hf, hg⟩
    · exact E.keys
    · exact T.okeys f hf g hg
  · intro v
    rw [eval_tAnd, List.all_cons, Bool.and_eq_true, E.sem, T.sem]
    constructor
    · rintro ⟨h1, h2⟩ g hg; rcases (hcs g).1 hg with rfl | ⟨f, hf, hg⟩
      · exact h1
      · exact h2 f hf g hg
    · intro h1
      exact ⟨h1 h ((hcs h).2 (.inl rfl)), fun f hf g hg => h1 g ((hcs g).2 (.inr ⟨f, hf, hg⟩))⟩
  · exact isCNF_tAnd (by
      intro f hf; rcases List.mem_cons.1 hf with rfl | hf
      · exact E.cnf
      · exact T.cnf f hf)
  · refine VIn.tAnd (X := fun x => ∃ g ∈ csubs h, PVar s' g x ∨ ∃ o ∈ nops g, PVar s' o x) ?_
    intro f hf x hx; rcases List.mem_cons.1 hf with rfl | hf
    · exact ⟨h, (hcs h).2 (.inl rfl), E.vars x hx⟩
    · obtain ⟨k, hk, g, hg, h1⟩ := T.vars f hf x hx
      exact ⟨g, (hcs g).2 (.inr ⟨k, hk, hg⟩), h1⟩

theorem transformation_ok (haux : ∀ m n, aux m = aux n → m = n) (f : Fm α) : Cnd c f → ∀ s, PInv c aux k0 s →
    PInv c aux k0 (computeTransformation c aux bot f s).2 ∧ PExt c s (computeTransformation c aux bot f s).2 ∧
      TransOK c (computeTransformation c aux bot f s).2 f (computeTransformation c aux bot f s).1 := by
  induction f using Fm.ind with
  | hl l =>
    intro _ s hs
    rw [computeTransformation]
    exact ⟨hs, .refl c s, ⟨by simp, by simp, by simp, rfl, by simp⟩⟩
  | ha fs ih =>
    intro hc s hs
    have hk : PK c (.and fs) := ⟨hc, rfl⟩
    obtain ⟨a1, a2, a3⟩ := computePos_ok (bot := bot) haux hs hk
    obtain ⟨b1, b2, b3⟩ := transL_ok (bot := bot) fs _ a1 hc.and_inv.1 (fun f hf => ih f hf (hc.and_inv.1 f hf))
    rw [computeTransformation]
    exact ⟨b1, a2.trans b2, trans_combine hk b2 a3 b3 (by intro g; rw [csubs_and]; simp [nops])⟩
  | ho fs ih =>
    intro hc s hs
    have hk : PK c (.or fs) := ⟨hc, rfl⟩
    obtain ⟨a1, a2, a3⟩ := computePos_ok (bot := bot) haux hs hk
    obtain ⟨b1, b2, b3⟩ := transL_ok (bot := bot) fs _ a1 hc.or_inv.1 (fun f hf => ih f hf (hc.or_inv.1 f hf))
    rw [computeTransformation]
    exact ⟨b1, a2.trans b2, trans_combine hk b2 a3 b3 (by intro g; rw [csubs_or]; simp [nops])⟩
  | _ => intro hc; cases hc
end step

section top
variable {c : Bool} {aux : Nat → α} {bot : α} {k0 : Nat} {s : TS α} {enc : Fm α → Fm α}

open Classical in
/-- the intended extension -/
noncomputable def extP (c : Bool) (s : TS α) (v : α → Bool) : α → Bool := fun x =>
  if h : ∃ g, PK c g ∧ (s.lm g).isSome ∧ s.lit g = some ⟨x, true⟩ then h.choose.eval v else v x

theorem plit (hs : PInv c aux k0 s) {g : Fm α} (hc : PK c g) (hg : (s.lm g).isSome) :
    ∃ n, k0 ≤ n ∧ n < s.cnt ∧ s.lit g = some ⟨aux n, true⟩ ∧ s.lm g = some (some ⟨aux n, true⟩) := by
  obtain ⟨t, ht⟩ := Option.isSome_iff_exists.1 hg
  obtain ⟨n, h1, h2, h3⟩ := hs.lit g t hc ht
  subst h3
  exact ⟨n, h1, h2, by simp [TS.lit, ht], ht⟩

theorem extP_lit (hs : PInv c aux k0 s) {g : Fm α} (hc : PK c g) (hg : (s.lm g).isSome) {x : α} (hl : s.lit g = some ⟨x, true⟩)
    (v : α → Bool) : extP c s v x = g.eval v := by
  have h : ∃ g, PK c g ∧ (s.lm g).isSome ∧ s.lit g = some ⟨x, true⟩ := ⟨g, hc, hg, hl⟩
  unfold extP
  rw [dif_pos h]
  have := h.choose_spec
  congr 1
  obtain ⟨n, _, _, e1, e2⟩ := plit hs hc hg
  obtain ⟨n', _, _, e1', e2'⟩ := plit hs this.1 this.2.1
  refine hs.inj _ _ this.1 hc this.2.1 ?_
  rw [e2, e2']
  rw [this.2.2] at e1'
  rw [hl] at e1
  rw [← e1', ← e1]

theorem extP_off (hs : PInv c aux k0 s) (v : α → Bool) {x : α} (hx : ¬Own aux k0 s.cnt x) : extP c s v x = v x := by
  unfold extP
  rw [dif_neg]
  rintro ⟨g, h1, h2, h3⟩
  obtain ⟨n, h4, h5, h6, _⟩ := plit hs h1 h2
  rw [h3] at h6
  simp at h6
  exact hx ⟨n, h4, h5, h6⟩

/-- truth of the definitions pushes truth of the literal down -/
theorem PL_sound (f : Fm α) : Cnd c f → ∀ v, (∀ g ∈ csubs f, PDef s v g) → PL s v f = true → f.eval v = true := by
  induction f using Fm.ind with
  | hl l => intro _ v _ h; simpa [PL] using h
  | ha fs ih =>
    intro hc v hd h
    rw [csubs_and] at hd
    have := hd _ (by simp) h
    simp only [List.all_eq_true] at this
    rw [Fm.eval_and, List.all_eq_true]
    exact fun f hf => ih f hf (hc.and_inv.1 f hf) v
      (fun g hg => hd g (List.mem_cons_of_mem _ (List.mem_flatMap.2 ⟨f, hf, hg⟩))) (this f hf)
  | ho fs ih =>
    intro hc v hd h
    rw [csubs_or] at hd
    have := hd _ (by simp) h
    simp only [List.any_eq_true] at this
    obtain ⟨f, hf, h⟩ := this
    rw [Fm.eval_or, List.any_eq_true]
    exact ⟨f, hf, ih f hf (hc.or_inv.1 f hf) v
      (fun g hg => hd g (List.mem_cons_of_mem _ (List.mem_flatMap.2 ⟨f, hf, hg⟩))) h⟩
  | _ => intro hc; cases hc

theorem PL_cmpd {f : Fm α} (h : cmpd f = true) (s : TS α) (v : α → Bool) : PL s v f = (litFm (s.lit f)).eval v := by
  cases f <;> simp [cmpd] at h <;> rfl

theorem nops_vars_sub {h o : Fm α} (ho : o ∈ nops h) : ∀ x ∈ o.vars, x ∈ h.vars := by
  intro x hx
  cases h <;> simp [nops] at ho
  · simp only [Fm.vars_and, List.mem_flatMap]; exact ⟨o, ho, hx⟩
  · simp only [Fm.vars_or, List.mem_flatMap]; exact ⟨o, ho, hx⟩

theorem trans_cnfOf (hs : PInv c aux k0 s) {g R : Fm α} (hk : PK c g) (hf : Fresh aux k0 g) (T : TransOK c s g R) :
    CnfOf (Own aux k0 s.cnt) g (restrictTop c (s.lit g) R) := by
  have hself := self_csubs hk.2
  obtain ⟨n, h1, h2, h3, _⟩ := plit hs hk (T.keys g hself)
  refine ⟨restrictTop_cnf T.cnf, ?_, ?_, ?_⟩
  · intro w hw
    rw [h3, restrictTop_eval, T.sem] at hw
    have := PL_sound g hk.1 _ hw (by rw [PL_cmpd hk.2, h3]; simp [litFm, Lit.eval, vset])
    rw [← this]
    refine Fm.eval_congr _ fun y hy => ?_
    simp only [vset]
    rw [if_neg]
    rintro rfl
    exact hf _ hy n h1 rfl
  · intro v hgv
    refine ⟨extP c s v, fun x hx => extP_off hs v hx, ?_⟩
    have htop : extP c s v (aux n) = true := by rw [extP_lit hs hk (T.keys g hself) h3]; exact hgv
    rw [h3, restrictTop_eval]
    have hset : vset (extP c s v) (aux n) true = extP c s v := by
      funext y; simp only [vset]; split
      · rename_i e; rw [e, htop]
      · rfl
    rw [hset, T.sem]
    have same : ∀ h, (∀ x ∈ h.vars, x ∈ g.vars) → Fm.eval (extP c s v) h = Fm.eval v h := fun h hh =>
      Fm.eval_congr _ fun y hy => extP_off hs v (hf.off (hh y hy))
    have val : ∀ h, Cnd c h → (cmpd h = true → (s.lm h).isSome) → (∀ x ∈ h.vars, x ∈ g.vars) → PL s (extP c s v) h = h.eval (extP c s v) := by
      intro h hc hkey hsub
      rcases hc.cmpd_or_lit with hcm | ⟨l, rfl⟩
      · rw [PL_cmpd hcm]
        obtain ⟨m, _, _, e, _⟩ := plit hs ⟨hc, hcm⟩ (hkey hcm)
        rw [e]
        simp only [litFm, Fm.eval_lit, Lit.eval, if_true]
        rw [same h hsub, ← extP_lit hs ⟨hc, hcm⟩ (hkey hcm) e v]
      · simp [PL]
    intro h hh
    have hkh := csubs_pk hk.1 h hh
    have hvh := csubs_vars g h hh
    have hval := val h hkh.1 (fun _ => T.keys h hh) hvh
    have hvals : ∀ o ∈ nops h, PL s (extP c s v) o = o.eval (extP c s v) := fun o ho =>
      val o (hkh.1.nops o ho) (T.okeys h hh o ho) (fun x hx => hvh x (nops_vars_sub ho x hx))
    intro hp
    rw [hval] at hp
    cases h with
    | and fs =>
      simp only [List.all_eq_true]
      rw [Fm.eval_and, List.all_eq_true] at hp
      intro o ho; rw [hvals o ho]; exact hp o ho
    | or fs =>
      simp only [List.any_eq_true]
      rw [Fm.eval_or, List.any_eq_true] at hp
      obtain ⟨o, ho, hp⟩ := hp
      exact ⟨o, ho, by rw [hvals o ho]; exact hp⟩
    | _ => rfl
  · intro x hx
    rw [h3] at hx
    have pv : ∀ h, Cnd c h → (cmpd h = true → (s.lm h).isSome) → (∀ x ∈ h.vars, x ∈ g.vars) → PVar s h x → x ∈ g.vars ∨ Own aux k0 s.cnt x := by
      intro h hc hkey hsub hp
      rcases hc.cmpd_or_lit with hcm | ⟨l, rfl⟩
      · obtain ⟨m, m1, m2, e, _⟩ := plit hs ⟨hc, hcm⟩ (hkey hcm)
        have : s.lit h = some ⟨x, true⟩ := by cases h <;> simp [cmpd] at hcm <;> exact hp
        rw [e] at this; simp at this; exact .inr ⟨m, m1, m2, this.symm⟩
      · exact .inl (hsub x (by simpa [PVar] using hp))
    obtain ⟨h, hh, h4⟩ := T.vars x (restrictTop_vars x hx).1
    have hkh := csubs_pk hk.1 h hh
    have hvh := csubs_vars g h hh
    rcases h4 with h4 | ⟨o, ho, h4⟩
    · exact pv h hkh.1 (fun _ => T.keys h hh) hvh h4
    · exact pv o (hkh.1.nops o ho) (T.okeys h hh o ho) (fun x hx => hvh x (nops_vars_sub ho x hx)) h4

/-- the final write into the literal map -/
theorem plmWrite_ok (hs : PInv c aux k0 s) {f g : Fm α} (h : Cnd c f → g = f) (hk : cmpd g = true → (s.lm g).isSome) :
    PInv c aux k0 { s with lm := fupd s.lm f (some (s.lit g)) } := by
  have same : ∀ k, PK c k → fupd s.lm f (some (s.lit g)) k = s.lm k := by
    intro k hk'
    by_cases e : k = f
    · subst e
      have e2 := h hk'.1
      subst e2
      rw [fupd_same]
      obtain ⟨n, _, _, e1, e2⟩ := plit hs hk' (hk hk'.2)
      rw [e1, e2]
    · exact fupd_ne _ _ e
  have ex : PExt c s { s with lm := fupd s.lm f (some (s.lit g)) } := ⟨fun k hk _ => same k hk, Nat.le_refl _⟩
  refine ⟨?_, ?_, ?_, hs.cnt⟩
  · intro h x hh e; exact hs.lit h x hh ((same h hh).symm.trans e)
  · intro h h' hh hh' k1 e
    have e1 := same h hh; have e2 := same h' hh'
    refine hs.inj h h' hh hh' ?_ ?_
    · rw [← e1]; exact k1
    · rw [← e1, ← e2]; exact e
  · intro h t hh ht; exact (hs.ent h t hh ht).ext ex hh

/-- `PGCNF` in a good state -/
theorem pg_ok (haux : ∀ m n, aux m = aux n → m = n) (hs : PInv c aux k0 s) (boundary : Int) (f : Fm α) (hp : f.pbFree = true)
    (hf : Fresh aux k0 f) {cache : List (Fm α × Fm α)} (h1 : CacheOK true cache) (h2 : CVars cache) :
    let r := pgCNF c aux bot enc boundary f cache s
    s.cnt ≤ r.2.2.cnt ∧ CacheOK true r.2.1 ∧ CVars r.2.1 ∧ CnfOf (Own aux k0 r.2.2.cnt) f r.1 ∧
      ((isCNF (nnf c enc f true) = true ∨ boundary ≤ atoms (nnf c enc f true)) → PInv c aux k0 r.2.2) := by
  have he := C08_nnf_equivalent c enc f hp
  have hv := nnf_vin (X := (· ∈ f.vars)) (c := c) (enc := enc) f hp (fun _ h => h) true
  simp only [pgCNF]
  have congr : ∀ {A : α → Prop} {g T : Fm α}, CnfOf A g T → Fm.Equivalent g f → (∀ x ∈ g.vars, x ∈ f.vars) → CnfOf A f T := by
    intro A g T h e hv
    exact ⟨h.cnf, fun w hw => by rw [← e w]; exact h.sound w hw, fun v hf => h.extend v (by rw [e v]; exact hf), fun x hx => (h.vars x hx).imp (hv x) id⟩
  split
  · rename_i h
    exact ⟨Nat.le_refl _, h1, h2, (cnfOf_equiv h he hv).1, fun _ => hs⟩
  rename_i hn
  simp only [Bool.not_eq_true] at hn
  obtain ⟨hcnd, hcm⟩ := nnf_isCNF_of_not_cmpd hp hn
  split
  · rename_i hb
    have hpg : (nnf c enc f true).pbFree = true := isNNF_pbFree _ (nnf_pbFree_core f hp true).isNNF
    have := factorize_all (c := c) (enc := enc) _ hpg h1 h2
    refine ⟨Nat.le_refl _, this.2.2.2.1, this.2.2.2.2, congr (cnfOf_equiv this.1 this.2.1 this.2.2.1).1 he hv, ?_⟩
    rintro (h | h)
    · rw [hn] at h; simp at h
    · omega
  · obtain ⟨a1, a2, a3⟩ := transformation_ok (bot := bot) haux (nnf c enc f true) hcnd s hs
    refine ⟨a2.cnt, h1, h2, congr (trans_cnfOf a1 ⟨hcnd, hcm⟩ (fun x hx => hf x (hv x hx)) a3) he hv, fun _ => ?_⟩
    exact plmWrite_ok a1 nnf_id (fun _ => a3.keys _ (self_csubs hcm))
end top

end Verif.NF
