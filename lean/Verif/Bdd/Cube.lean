import Verif.Bdd.ApiSpec
/-
BDDs of conjunctions of literals, restriction and quantification of the functions of named variables.
-/
namespace Verif.Bdd
open Verif
set_option linter.unusedSectionVars false
variable {α σ : Type} [DecidableEq α]

/-- the ordered reduced tree of a consistent conjunction of literals is a path with these literals -/
theorem cube {n : Nat} : ∀ {t : T} {m : Nat} {L : List (Nat × Bool)}, Ord n m t →
    (∀ ρ : Nat → Bool, t.eval ρ = L.all fun p => ρ p.1 == p.2) → (∀ v, (v, true) ∈ L → (v, false) ∉ L) →
    (∀ v b, t.cp.lookup v = some b ↔ (v, b) ∈ L) ∧ ((∀ p ∈ L, p.2 = true) → ∀ v, v ∈ t.hs ↔ (v, true) ∈ L)
  | .leaf b, m, L, ho, he, hc => by
    have hL : L = [] := by
      cases hL : L with
      | nil => rfl
      | cons p ps =>
        exfalso
        have h1 := he fun v => decide ((v, true) ∈ L)
        have h2 := he fun _ => !p.2
        have e1 : L.all (fun q => decide ((q.1, true) ∈ L) == q.2) = true := by
          rw [List.all_eq_true]
          rintro ⟨v, c⟩ hv
          cases c
          · simp only [beq_iff_eq, decide_eq_false_iff_not]
            exact fun h => hc v h hv
          · simpa using hv
        have e2 : L.all (fun q => (!p.2) == q.2) = false := by rw [hL]; simp
        rw [e1] at h1
        rw [e2] at h2
        simp only [T.eval] at h1 h2
        rw [h1] at h2
        cases h2
    subst hL
    simp [T.cp, T.hs]
  | .node v l h, m, L, ho, he, hc => by
    obtain ⟨o1, o2, o3, o4, o5⟩ := ho
    have hlo : ∀ ρ, l.eval ρ = L.all fun p => setv ρ v false p.1 == p.2 := fun ρ => by
      rw [← eval_low (h := h) o4, he]
    have hhi : ∀ ρ, h.eval ρ = L.all fun p => setv ρ v true p.1 == p.2 := fun ρ => by
      rw [← eval_high (l := l) o5, he]
    have hfil : ∀ (b : Bool), (v, !b) ∉ L → ∀ ρ, L.all (fun p => setv ρ v b p.1 == p.2) =
        (L.filter fun p => p.1 ≠ v).all fun p => ρ p.1 == p.2 := by
      intro b hb ρ
      rw [Bool.eq_iff_iff, List.all_eq_true, List.all_eq_true]
      constructor
      · intro hh p hp
        obtain ⟨h1, h2⟩ := List.mem_filter.1 hp
        have := hh p h1
        simp only [ne_eq, decide_not, Bool.not_eq_eq_eq_not, Bool.not_true, decide_eq_false_iff_not] at h2
        simpa only [setv, if_neg h2] using this
      · intro hh p hp
        by_cases hv : p.1 = v
        · obtain ⟨w, c⟩ := p
          simp only at hv
          subst hv
          simp only [setv, if_true, beq_iff_eq]
          cases c <;> cases b <;> simp_all
        · simpa only [setv, if_neg hv] using hh p (List.mem_filter.2 ⟨hp, by simpa using hv⟩)
    have hconst : ∀ (b : Bool), (v, b) ∈ L → ∀ ρ, L.all (fun p => setv ρ v (!b) p.1 == p.2) = false := by
      intro b hb ρ
      rw [← Bool.not_eq_true, List.all_eq_true]
      intro hh
      have := hh _ hb
      simp [setv] at this
    have hcf : ∀ w, (w, true) ∈ L.filter (fun p => p.1 ≠ v) → (w, false) ∉ L.filter (fun p => p.1 ≠ v) :=
      fun w h1 h2 => hc w (List.mem_filter.1 h1).1 (List.mem_filter.1 h2).1
    by_cases ht : (v, true) ∈ L
    · have hf := hc v ht
      have hl : l = .leaf false := o4.const fun ρ => by rw [hlo]; exact hconst true ht ρ
      obtain ⟨i1, i2⟩ := cube (L := L.filter fun p => p.1 ≠ v) o5 (fun ρ => by rw [hhi, hfil true hf]) hcf
      have hcp : (T.node v l h).cp = (v, true) :: h.cp := by simp [T.cp, hl]
      refine ⟨fun w b => ?_, fun hp w => ?_⟩
      · rw [hcp]
        by_cases hw : w = v
        · subst hw
          simp only [List.lookup, beq_self_eq_true, Option.some.injEq]
          cases b <;> simp [ht, hf]
        · have hb : (w == v) = false := by simpa using hw
          simp only [List.lookup, hb]
          rw [i1, List.mem_filter]
          simp [hw]
      · simp only [T.hs, List.mem_cons]
        rw [i2 fun p h => hp p (List.mem_filter.1 h).1, List.mem_filter]
        by_cases hw : w = v
        · subst hw; simp [ht]
        · simp [hw]
    · by_cases hf : (v, false) ∈ L
      · have hh : h = .leaf false := o5.const fun ρ => by rw [hhi]; exact hconst false hf ρ
        have hl : l ≠ .leaf false := fun e => o3 (e.trans hh.symm)
        obtain ⟨i1, i2⟩ := cube (L := L.filter fun p => p.1 ≠ v) o4 (fun ρ => by rw [hlo, hfil false ht]) hcf
        have hcp : (T.node v l h).cp = (v, false) :: l.cp := by simp [T.cp, hl]
        refine ⟨fun w b => ?_, fun hp w => absurd (hp _ hf) (by simp)⟩
        rw [hcp]
        by_cases hw : w = v
        · subst hw
          simp only [List.lookup, beq_self_eq_true, Option.some.injEq]
          cases b <;> simp [ht, hf]
        · have hb : (w == v) = false := by simpa using hw
          simp only [List.lookup, hb]
          rw [i1, List.mem_filter]
          simp [hw]
      · exfalso
        refine o3 (o4.canon _ _ o5 fun ρ => ?_)
        rw [hlo, hhi, hfil false ht, hfil true hf]

/-! ### `CompileLiterals` -/

theorem combine_true {P : Par} (hgr : ∀ s, s < P.grow s) (op : Bop) {w : W α} {own : Nat → Nat}
    {a b : Nat} (hg : Good P w (inc (inc own a) b)) {fa fb : (α → Bool) → Bool} (da : Den w a fa) (db : Den w b fb) :
    ∃ x k1 k2 k3 k4, kapply P op w.k a b = some (x, k1) ∧ addRef k1 x = some k2 ∧ delRef k2 a = some k3 ∧
      delRef k3 b = some k4 ∧ Ext own [] w { w with k := k4 } ∧ Good P { w with k := k4 } (inc own x) ∧
      Den { w with k := k4 } x fun v => op.f (fa v) (fb v) := by
  obtain ⟨x, k1, h1, h2, h3, h4⟩ := kapply_den hgr op hg (inc_pos inc_self) inc_self da db
  obtain ⟨k2, g1, g2, g3, g4⟩ := addRef_den h2 h4
  obtain ⟨k3, d1, d2, d3, d4⟩ := delRef_den (w := { w with k := k2 }) (x := a) g2 (inc_pos (inc_pos inc_self))
  have hb : 0 < dec (inc (inc (inc own a) b) x) a b := by
    unfold inc dec upd
    by_cases hab : b = a
    · subst hab; by_cases hx : b = x <;> simp [hx]
    · rw [if_neg hab]; by_cases hx : b = x
      · rw [if_pos hx]; omega
      · rw [if_neg hx, if_pos rfl]; omega
  obtain ⟨k4, e1, e2, e3, e4⟩ := delRef_den (w := { w with k := k3 }) d2 hb
  refine ⟨x, k1, k2, k3, k4, h1, g1, d1, e1, ?_, e2.mono fun i => own_combine own a b x i,
    e4 _ _ (d4 _ _ (g4 _ _ h4))⟩
  have a1 : Ext own [] w { w with k := k1 } := h3.mono (fun i h => inc_pos (inc_pos h)) fun _ h => h
  exact ((a1.trans (V'' := []) (g3 own) (fun _ h => h) (by simp) (by simp)).trans (V'' := []) (d3 own) (fun _ h => h)
    (by simp) (by simp)).trans (V'' := []) (e3 own) (fun _ h => h) (by simp) (by simp)

theorem mem_ext {own : Nat → Nat} {V : List α} {w w' : W α} (h : Ext own V w w') {x : α} (hx : x ∈ w.names) :
    x ∈ w'.names := by
  obtain ⟨ys, e, _⟩ := h.names
  rw [e]
  exact List.mem_append_left _ hx

theorem litsLoop_spec {P : Par} (hgr : ∀ s, s < P.grow s) : ∀ (ls : List (Lit α)) {w : W α} {own : Nat → Nat} {b : Nat}
    {g : (α → Bool) → Bool}, Good P w (inc own b) → Den w b g →
    (litsLoop P w b ls = none ∧ NoFit w (ls.map (·.var))) ∨
    ∃ x w', litsLoop P w b ls = some (x, w') ∧ Ext own (ls.map (·.var)) w w' ∧ Good P w' (inc own x) ∧
      Den w' x (fun v => g v && ls.all fun l => l.eval v) ∧ ∀ l ∈ ls, l.var ∈ w'.names
  | [], w, own, b, g, hg, hd => .inr ⟨b, w, rfl, .refl _ _ _, hg, by simpa using hd, by simp⟩
  | l :: ls, w, own, b, g, hg, hd => by
    rcases litNode_spec hg l with ⟨h1, h2⟩ | ⟨p, w1, h1, hk, h2, h3, _, h4, j, hj, _⟩
    · refine .inl ⟨?_, fun U a b => h2 U a fun x hx => b x (by simp_all)⟩
      unfold litsLoop
      rw [h1]; rfl
    · obtain ⟨x, k1, k2, k3, k4, e1, e2, e3, e4, e5, e6, e7⟩ := combine_true hgr .and h2 (h3.den inc_self hd) h4
      have h5 : Ext own [l.var] w { w1 with k := k4 } :=
        (h3.mono (own' := own) (V' := [l.var]) (fun _ h => inc_pos h) fun _ h => h).trans (V'' := [l.var]) e5 (fun _ h => h)
          (fun _ h => h) (by simp)
      have hstep : litsLoop P w b (l :: ls) = litsLoop P { w1 with k := k4 } x ls := by
        conv => lhs; unfold litsLoop
        simp only [Option.bind_eq_bind, h1, Option.bind_some, e1, e2, e3, e4]
      rw [hstep]
      rcases litsLoop_spec hgr ls e6 e7 with ⟨d1, d2⟩ | ⟨y, w', d1, d2, d3, d4, d5⟩
      · exact .inl ⟨d1, d2.mono h5 (by simp) (by simp +contextual)⟩
      · refine .inr ⟨y, w', d1, h5.trans d2 (fun _ h => h) (by simp) (by simp +contextual), d3, ?_, ?_⟩
        · have : (fun v => Bop.and.f (g v) (l.eval v) && ls.all fun l => l.eval v) =
              fun v => g v && (l :: ls).all fun l => l.eval v := by
            funext v
            simp [Bop.f, Bool.and_assoc]
          rw [← this]
          exact d4
        · intro l' hl'
          rcases List.mem_cons.1 hl' with rfl | hl'
          · exact mem_ext d2 (by
              show l'.var ∈ w1.names
              exact List.mem_of_getElem? hj)
          · exact d5 l' hl'

theorem compileLits_spec {P : Par} (hgr : ∀ s, s < P.grow s) {ls : List (Lit α)} (hne : ls ≠ []) {w : W α}
    {own : Nat → Nat} (hg : Good P w own) :
    (compileLits P w ls = none ∧ NoFit w (ls.map (·.var))) ∨
    ∃ x w', compileLits P w ls = some (x, w') ∧ Ext own (ls.map (·.var)) w w' ∧ Good P w' (inc own x) ∧
      Den w' x (fun v => ls.all fun l => l.eval v) ∧ ∀ l ∈ ls, l.var ∈ w'.names := by
  cases ls with
  | nil => exact absurd rfl hne
  | cons l ls =>
    have hs : compileLits P w (l :: ls) = (litNode w l).bind fun p => litsLoop P p.2 p.1 ls := rfl
    rw [hs]
    rcases litNode_spec hg l with ⟨h1, h2⟩ | ⟨p, w1, h1, hk, h2, h3, _, h4, j, hj, _⟩
    · refine .inl ⟨?_, fun U a b => h2 U a fun x hx => b x (by simp_all)⟩
      rw [h1]; rfl
    · rw [h1]
      simp only [Option.bind_some]
      rcases litsLoop_spec hgr ls h2 h4 with ⟨d1, d2⟩ | ⟨y, w', d1, d2, d3, d4, d5⟩
      · exact .inl ⟨d1, d2.mono h3 (by simp) (by simp +contextual)⟩
      · refine .inr ⟨y, w', d1, h3.trans d2 (fun _ h => h) (by simp) (by simp +contextual), d3, d4, ?_⟩
        intro l' hl'
        rcases List.mem_cons.1 hl' with rfl | hl'
        · exact mem_ext d2 (List.mem_of_getElem? hj)
        · exact d5 l' hl'

/-! ### Levels and names -/

/-- the assignment of the names for an assignment of the levels -/
def named (names : List α) (ρ : Nat → Bool) : α → Bool := fun x => ρ (names.idxOf x)

theorem named_spec {names : List α} (hnd : names.Nodup) (ρ : Nat → Bool) (j : Nat) (x : α) (h : names[j]? = some x) :
    ρ j = named names ρ x := by
  obtain ⟨h1, h2⟩ := List.getElem?_eq_some_iff.1 h
  subst h2
  unfold named
  rw [hnd.idxOf_getElem]

/-- assign the literals, keep the rest -/
def setLits (ls : List (Lit α)) (v : α → Bool) : α → Bool := fun x =>
  if (⟨x, true⟩ : Lit α) ∈ ls then true else if (⟨x, false⟩ : Lit α) ∈ ls then false else v x

/-- no literal together with its negation -/
def Consistent (ls : List (Lit α)) : Prop := ∀ x, (⟨x, true⟩ : Lit α) ∈ ls → (⟨x, false⟩ : Lit α) ∉ ls

/-- levels of literals -/
def lvls (names : List α) (ls : List (Lit α)) : List (Nat × Bool) := ls.map fun l => (names.idxOf l.var, l.pos)

theorem mem_lvls {names : List α} (hnd : names.Nodup) {ls : List (Lit α)} (hin : ∀ l ∈ ls, l.var ∈ names) {j : Nat} {x : α}
    (hj : names[j]? = some x) (b : Bool) : (j, b) ∈ lvls names ls ↔ (⟨x, b⟩ : Lit α) ∈ ls := by
  obtain ⟨h1, h2⟩ := List.getElem?_eq_some_iff.1 hj
  subst h2
  unfold lvls
  rw [List.mem_map]
  constructor
  · rintro ⟨l, hl, e⟩
    obtain ⟨e1, e2⟩ := Prod.mk.injEq _ _ _ _ ▸ e
    have : names[j] = l.var := by
      have := hin l hl
      rw [← List.getElem_idxOf (List.idxOf_lt_length_of_mem this)]
      congr 1
      exact e1.symm
    rw [this, ← e2]
    exact hl
  · intro hl
    exact ⟨_, hl, by simp [hnd.idxOf_getElem]⟩

theorem lits_tree {w : W α} (hnd : w.names.Nodup) {c : Nat} {ls : List (Lit α)} (hc : Consistent ls)
    (hin : ∀ l ∈ ls, l.var ∈ w.names) {P : Par} (hi : Inv P w.k) (hd : Den w c fun v => ls.all fun l => l.eval v) :
    ∃ tv, Rep w.k.nd c tv ∧ (∀ v b, tv.cp.lookup v = some b ↔ (v, b) ∈ lvls w.names ls) ∧
      ((∀ l ∈ ls, l.pos = true) → ∀ v, v ∈ tv.hs ↔ (v, true) ∈ lvls w.names ls) := by
  obtain ⟨tv, r, e⟩ := hd
  obtain ⟨h1, h2⟩ := cube (L := lvls w.names ls) (hi.ord r) (fun ρ => by
    rw [e ρ (named w.names ρ) fun j x h => named_spec hnd ρ j x h]
    unfold lvls
    rw [List.all_map]
    show (ls.all fun l => l.eval (named w.names ρ)) = _
    congr 1
    funext l
    simp only [Lit.eval, named, Function.comp]
    cases l.pos <;> cases ρ (w.names.idxOf l.var) <;> rfl) (fun v hv hf => by
    obtain ⟨l, hl, e⟩ := List.mem_map.1 hv
    have hj : w.names[v]? = some l.var := by
      have := List.idxOf_lt_length_of_mem (hin l hl)
      have e1 : w.names.idxOf l.var = v := (Prod.mk.injEq _ _ _ _ ▸ e).1
      subst e1
      rw [List.getElem?_eq_getElem this]
      simp
    exact hc l.var ((mem_lvls hnd hin hj true).1 hv) ((mem_lvls hnd hin hj false).1 hf))
  refine ⟨tv, r, h1, fun hp => h2 fun p hpm => ?_⟩
  obtain ⟨l, hl, rfl⟩ := List.mem_map.1 hpm
  exact hp l hl

end Verif.Bdd
