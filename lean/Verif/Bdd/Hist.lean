import Verif.Bdd.Cube
/-
Restriction and quantification of BDDs over named variables, and arbitrary sequences of calls of the BDD API.
-/
namespace Verif.Bdd
open Verif
set_option linter.unusedSectionVars false
variable {α σ : Type} [DecidableEq α]

/-! ### Compilation, with the normal form of the constraints -/

/-- formulas that can be compiled: n-ary operators have operands, the normal form of a constraint is a
constraint-free equivalent formula without new variables -/
def Compilable (nnf : Fm α → Fm α) (φ : Fm α) : Prop :=
  Ok (fun ψ => Ok (fun _ => False) (nnf ψ) ∧ (∀ v, (nnf ψ).eval v = ψ.eval v) ∧ ∀ x ∈ (nnf ψ).vars, x ∈ ψ.vars) φ

mutual
theorem Ok.imp {C D : Fm α → Prop} (hh : ∀ ψ, C ψ → D ψ) : ∀ {φ : Fm α}, Ok C φ → Ok D φ
  | .fls, _ => trivial
  | .tru, _ => trivial
  | .lit _, _ => trivial
  | .not f, h => Ok.imp hh (φ := f) h
  | .and fs, h => ⟨h.1, OkL.imp hh h.2⟩
  | .or fs, h => ⟨h.1, OkL.imp hh h.2⟩
  | .impl f g, h => ⟨Ok.imp hh h.1, Ok.imp hh h.2⟩
  | .equiv f g, h => ⟨Ok.imp hh h.1, Ok.imp hh h.2⟩
  | .cc _ _ _, h => hh _ h
  | .pbc _ _ _, h => hh _ h
theorem OkL.imp {C D : Fm α → Prop} (hh : ∀ ψ, C ψ → D ψ) : ∀ {fs : List (Fm α)}, OkL C fs → OkL D fs
  | [], _ => trivial
  | _ :: _, h => ⟨Ok.imp hh h.1, OkL.imp hh h.2⟩
end

theorem compile_spec {P : Par} (hgr : ∀ s, s < P.grow s) (h : σ → Bool × σ) (nnf : Fm α → Fm α) {φ : Fm α}
    (hc : Compilable nnf φ) {own : Nat → Nat} {w : W α} (s : σ) (hg : Good P w own) :
    Does P (compile P h nnf φ w s) own w φ.vars fun v => φ.eval v := by
  refine compileW_spec hgr h _ φ s (hc.imp fun ψ hψ own w s hg => ?_) hg
  have := compileW_spec hgr h (fun _ _ _ => none) (nnf ψ) (own := own) (w := w) s (hψ.1.imp fun _ h => h.elim) hg
  rw [show (fun v => ψ.eval v) = fun v => (nnf ψ).eval v from funext fun v => (hψ.2.1 v).symm]
  exact this.mono hψ.2.2

/-! ### Restriction and quantification -/

/-- `g` under the literals `ls`; contradictory literals have no effect -/
noncomputable def gRestrict (g : (α → Bool) → Bool) (ls : List (Lit α)) : (α → Bool) → Bool := fun v =>
  open Classical in if Consistent ls then g (setLits ls v) else g v

/-- some assignment of `xs` makes `g` true -/
noncomputable def gExists (g : (α → Bool) → Bool) (xs : List α) : (α → Bool) → Bool := fun v =>
  open Classical in decide (∃ u : α → Bool, (∀ x, x ∉ xs → u x = v x) ∧ g u = true)

/-- every assignment of `xs` makes `g` true -/
noncomputable def gForAll (g : (α → Bool) → Bool) (xs : List α) : (α → Bool) → Bool := fun v =>
  open Classical in decide (∀ u : α → Bool, (∀ x, x ∉ xs → u x = v x) → g u = true)

theorem Good.le {P : Par} {w : W α} {own own' : Nat → Nat} (h : Good P w own) (hle : ∀ i, own' i ≤ own i) : Good P w own' :=
  ⟨h.wf, h.own.mono hle, h.nd, h.len⟩

/-- the literals are compiled to a node that is kept -/
theorem compileLits_prot {P : Par} (hgr : ∀ s, s < P.grow s) (ls : List (Lit α)) {w : W α}
    {own : Nat → Nat} (hg : Good P w own) :
    (compileLits P w ls = none ∧ NoFit w (ls.map (·.var))) ∨
    ∃ c w', compileLits P w ls = some (c, w') ∧ Ext own (ls.map (·.var)) w w' ∧ Good P w' own ∧ HP w'.k c ∧
      Den w' c (fun v => ls ≠ [] && ls.all fun l => l.eval v) ∧ ∀ l ∈ ls, l.var ∈ w'.names := by
  by_cases hne : ls = []
  · subst hne
    exact .inr ⟨0, w, rfl, .refl _ _ _, hg, .inl (by omega), ⟨_, .ff, fun _ _ _ => rfl⟩, by simp⟩
  · rcases compileLits_spec hgr hne hg with h | ⟨x, w', h1, h2, h3, h4, h5⟩
    · exact .inl h
    · refine .inr ⟨x, w', h1, h2, h3.le (inc_le _ _), h3.own.prot inc_self, ?_, h5⟩
      simpa [hne] using h4

theorem bRestrict_spec {P : Par} (hgr : ∀ s, s < P.grow s) (ls : List (Lit α)) {w : W α}
    {own : Nat → Nat} (hg : Good P w own) {a : Nat} (ha : 0 < own a) {g : (α → Bool) → Bool} (hd : Den w a g) :
    (bRestrict P w a ls = none ∧ NoFit w (ls.map (·.var))) ∨
    ∃ x w', bRestrict P w a ls = some (x, w') ∧ Ext own (ls.map (·.var)) w w' ∧ Good P w' own ∧
      Den w' x (gRestrict g ls) := by
  have hs : bRestrict P w a ls = (compileLits P w ls).bind fun p => (krestrict P p.2.k a p.1).bind fun q =>
    some (q.1, { p.2 with k := q.2 }) := rfl
  rw [hs]
  rcases compileLits_prot hgr ls hg with ⟨h1, h2⟩ | ⟨c, w1, h1, h2, h3, h4, h5, h6⟩
  · exact .inl ⟨by rw [h1]; rfl, h2⟩
  · right
    rw [h1]
    simp only [Option.bind_some]
    obtain ⟨ta, ra, ea⟩ := h2.den ha hd
    obtain ⟨tv, rv, ev⟩ := h5
    obtain ⟨x, k', t, e1, e2, e3, e4, e5⟩ := krestrict_spec hgr h3.wf (h3.own.prot ha) ra h4 rv
    rw [e1]
    refine ⟨x, { w1 with k := k' }, rfl, ?_, ⟨e2, h3.own.same e3, h3.nd, by show _ ≤ k'.n; rw [e3.n]; exact h3.len⟩,
      t, e4, fun ρ v hm => ?_⟩
    · have : Ext own [] w1 { w1 with k := k' } := ⟨e3.n, e3.heap, ⟨[], by simp⟩, fun i t ho hr => e3.rep (h3.own.prot ho) hr, e3.surv⟩
      exact h2.trans this (fun _ h => h) (fun _ h => h) (by simp)
    · rw [e5]
      unfold gRestrict
      by_cases hne : ls = []
      · subst hne
        have hl := h3.wf.inv.ord rv |>.const (b := false) fun ρ => by
          rw [ev ρ (named w1.names ρ) fun j x h => named_spec h3.nd ρ j x h]; simp
        rw [hl, if_pos (by intro x hx; simp at hx)]
        rw [show over (T.leaf false).cp ρ = ρ from funext fun v => by simp [over, T.cp]]
        rw [show setLits [] v = v from funext fun v => by simp [setLits]]
        exact ea ρ v hm
      · by_cases hc : Consistent ls
        · rw [if_pos hc]
          obtain ⟨tv', r', c1, _⟩ := lits_tree h3.nd hc h6 h3.wf.inv ⟨tv, rv, by simpa [hne] using ev⟩
          obtain rfl := rv.fun r'
          refine ea _ _ fun j x hj => ?_
          unfold over setLits
          by_cases ht : (⟨x, true⟩ : Lit α) ∈ ls
          · rw [if_pos ht, (c1 j true).2 ((mem_lvls h3.nd h6 hj true).2 ht)]; rfl
          · rw [if_neg ht]
            by_cases hf : (⟨x, false⟩ : Lit α) ∈ ls
            · rw [if_pos hf, (c1 j false).2 ((mem_lvls h3.nd h6 hj false).2 hf)]; rfl
            · rw [if_neg hf]
              have : tv.cp.lookup j = none := by
                cases hl : tv.cp.lookup j with
                | none => rfl
                | some b =>
                  have := (mem_lvls h3.nd h6 hj b).1 ((c1 j b).1 hl)
                  cases b
                  · exact absurd this hf
                  · exact absurd this ht
              rw [this]
              exact hm j x hj
        · rw [if_neg hc]
          have hl := h3.wf.inv.ord rv |>.const (b := false) fun ρ => by
            rw [ev ρ (named w1.names ρ) fun j x h => named_spec h3.nd ρ j x h]
            rw [← Bool.not_eq_true, Bool.and_eq_true, List.all_eq_true]
            rintro ⟨-, hh⟩
            refine hc fun x h1 h2 => ?_
            have a1 := hh _ h1
            have a2 := hh _ h2
            simp [Lit.eval] at a1 a2
            rw [a1] at a2; cases a2
          rw [hl, show over (T.leaf false).cp ρ = ρ from funext fun v => by simp [over, T.cp]]
          exact ea ρ v hm

/-- the part of `Exists`/`ForAll` that does not depend on the quantifier -/
theorem bQuant_spec {P : Par} (hgr : ∀ s, s < P.grow s) (op : Bop) (kq : K → Nat → Nat → Option (Nat × K))
    (hq : ∀ {k : K}, Wf P k → ∀ {r var : Nat} {tr tv : T}, HP k r → Rep k.nd r tr → HP k var → Rep k.nd var tv →
      ∃ x k' t, kq k r var = some (x, k') ∧ Wf P k' ∧ Same k k' ∧ Rep k'.nd x t ∧
        ∀ ρ, t.eval ρ = true ↔ Quant op tv.hs tr ρ)
    (G : (α → Bool) → Bool) (xs : List α) {w : W α}
    {own : Nat → Nat} (hg : Good P w own) {a : Nat} (ha : 0 < own a) {g : (α → Bool) → Bool} (hd : Den w a g)
    (hG : ∀ (names : List α) (ta : T) (S : List Nat) (ρ : Nat → Bool) (v : α → Bool), names.Nodup →
      (∀ (ρ : Nat → Bool) (v : α → Bool), (∀ (j : Nat) x, names[j]? = some x → ρ j = v x) → ta.eval ρ = g v) →
      (∀ j x, names[j]? = some x → (j ∈ S ↔ x ∈ xs)) →
      (∀ (j : Nat) x, names[j]? = some x → ρ j = v x) → (Quant op S ta ρ ↔ G v = true)) :
    let r := (compileLits P w (xs.map fun x => ⟨x, true⟩)).bind fun p => (kq p.2.k a p.1).bind fun q =>
      some (q.1, { p.2 with k := q.2 })
    (r = none ∧ NoFit w xs) ∨
    ∃ x w', r = some (x, w') ∧ Ext own xs w w' ∧ Good P w' own ∧ Den w' x G := by
  intro r
  have hmap : (xs.map fun x => (⟨x, true⟩ : Lit α)).map (·.var) = xs := by
    rw [List.map_map]; exact List.map_id'' (fun _ => rfl) xs
  rcases compileLits_prot hgr (xs.map fun x => ⟨x, true⟩) hg with ⟨h1, h2⟩ | ⟨c, w1, h1, h2, h3, h4, h5, h6⟩
  · refine .inl ⟨by show Option.bind _ _ = _; rw [h1]; rfl, by rw [hmap] at h2; exact h2⟩
  · right
    show ∃ x w', Option.bind _ _ = _ ∧ _
    rw [h1]
    simp only [Option.bind_some]
    rw [hmap] at h2
    obtain ⟨ta, ra, ea⟩ := h2.den ha hd
    obtain ⟨tv, rv, ev⟩ := h5
    obtain ⟨x, k', t, e1, e2, e3, e4, e5⟩ := hq h3.wf (h3.own.prot ha) ra h4 rv
    rw [e1]
    refine ⟨x, { w1 with k := k' }, rfl, ?_, ⟨e2, h3.own.same e3, h3.nd, by show _ ≤ k'.n; rw [e3.n]; exact h3.len⟩,
      t, e4, fun ρ v hm => ?_⟩
    · have : Ext own [] w1 { w1 with k := k' } := ⟨e3.n, e3.heap, ⟨[], by simp⟩, fun i t ho hr => e3.rep (h3.own.prot ho) hr, e3.surv⟩
      exact h2.trans this (fun _ h => h) (fun _ h => h) (by simp)
    · have hS : ∀ j x, w1.names[j]? = some x → (j ∈ tv.hs ↔ x ∈ xs) := by
        intro j x hj
        by_cases hne : xs = []
        · subst hne
          have hl := h3.wf.inv.ord rv |>.const (b := false) fun ρ => by
            rw [ev ρ (named w1.names ρ) fun j x h => named_spec h3.nd ρ j x h]; simp
          rw [hl]; simp [T.hs]
        · have hne' : (xs.map fun x => (⟨x, true⟩ : Lit α)) ≠ [] := by simpa using hne
          obtain ⟨tv', r', _, c2⟩ := lits_tree h3.nd (ls := xs.map fun x => ⟨x, true⟩) (by
            intro x _ hf
            obtain ⟨y, _, hy⟩ := List.mem_map.1 hf
            cases hy) h6 h3.wf.inv ⟨tv, rv, by
              have e : (fun v : α → Bool => (decide ((xs.map fun x => (⟨x, true⟩ : Lit α)) ≠ []) &&
                (xs.map fun x => (⟨x, true⟩ : Lit α)).all fun l => l.eval v)) =
                fun v => (xs.map fun x => (⟨x, true⟩ : Lit α)).all fun l => l.eval v := by
                  funext v; rw [decide_eq_true hne', Bool.true_and]
              rw [e] at ev
              exact ev⟩
          obtain rfl := rv.fun r'
          rw [c2 (by simp), mem_lvls h3.nd h6 hj true]
          simp
      rw [Bool.eq_iff_iff, e5]
      exact hG w1.names ta tv.hs ρ v h3.nd ea hS hm

/-- assignments of the levels for assignments of the names -/
theorem lift_named {names : List α} (hnd : names.Nodup) {S : List Nat} {xs : List α}
    (hS : ∀ j x, names[j]? = some x → (j ∈ S ↔ x ∈ xs)) {ρ : Nat → Bool} {v u : α → Bool}
    (hm : ∀ (j : Nat) x, names[j]? = some x → ρ j = v x) (hu : ∀ x, x ∉ xs → u x = v x) :
    ∃ τ : Nat → Bool, (∀ j, j ∉ S → τ j = ρ j) ∧ ∀ (j : Nat) x, names[j]? = some x → τ j = u x := by
  refine ⟨fun j => match names[j]? with | some x => u x | none => ρ j, fun j hj => ?_, fun j x hx => ?_⟩
  · cases hx : names[j]? with
    | none => simp only [hx]
    | some x => simp only [hx]; rw [hm j x hx, hu x fun h => hj ((hS j x hx).2 h)]
  · simp only [hx]

/-- assignments of the names for assignments of the levels -/
theorem drop_named {names : List α} (hnd : names.Nodup) {S : List Nat} {xs : List α}
    (hS : ∀ j x, names[j]? = some x → (j ∈ S ↔ x ∈ xs)) {ρ τ : Nat → Bool} {v : α → Bool}
    (hm : ∀ (j : Nat) x, names[j]? = some x → ρ j = v x) (hτ : ∀ j, j ∉ S → τ j = ρ j) :
    ∃ u : α → Bool, (∀ x, x ∉ xs → u x = v x) ∧ ∀ (j : Nat) x, names[j]? = some x → τ j = u x := by
  refine ⟨fun x => if x ∈ names then named names τ x else v x, fun x hx => ?_, fun j x hj => ?_⟩
  · dsimp only
    by_cases h : x ∈ names
    · rw [if_pos h]
      obtain ⟨j, hj⟩ := List.mem_iff_getElem?.1 h
      rw [← named_spec hnd τ j x hj, hτ j fun hh => hx ((hS j x hj).1 hh), hm j x hj]
    · rw [if_neg h]
  · dsimp only
    rw [if_pos (List.mem_of_getElem? hj)]
    exact named_spec hnd τ j x hj

theorem bExists_spec {P : Par} (hgr : ∀ s, s < P.grow s) (xs : List α) {w : W α}
    {own : Nat → Nat} (hg : Good P w own) {a : Nat} (ha : 0 < own a) {g : (α → Bool) → Bool} (hd : Den w a g) :
    (bExists P w a xs = none ∧ NoFit w xs) ∨
    ∃ x w', bExists P w a xs = some (x, w') ∧ Ext own xs w w' ∧ Good P w' own ∧ Den w' x (gExists g xs) :=
  bQuant_spec hgr .or (kexists P) (fun hw => kexists_spec hgr hw) (gExists g xs) xs hg ha hd
    fun names ta S ρ v hnd ea hS hm => by
      unfold gExists
      refine Iff.trans ?_ (@decide_eq_true_iff _ (_)).symm
      constructor
      · rintro ⟨τ, h1, h2⟩
        obtain ⟨u, u1, u2⟩ := drop_named hnd hS hm h1
        exact ⟨u, u1, by rw [← ea τ u u2]; exact h2⟩
      · rintro ⟨u, h1, h2⟩
        obtain ⟨τ, t1, t2⟩ := lift_named hnd hS hm h1
        exact ⟨τ, t1, by rw [ea τ u t2]; exact h2⟩

theorem bForAll_spec {P : Par} (hgr : ∀ s, s < P.grow s) (xs : List α) {w : W α}
    {own : Nat → Nat} (hg : Good P w own) {a : Nat} (ha : 0 < own a) {g : (α → Bool) → Bool} (hd : Den w a g) :
    (bForAll P w a xs = none ∧ NoFit w xs) ∨
    ∃ x w', bForAll P w a xs = some (x, w') ∧ Ext own xs w w' ∧ Good P w' own ∧ Den w' x (gForAll g xs) :=
  bQuant_spec hgr .and (kforAll P) (fun hw => kforAll_spec hgr hw) (gForAll g xs) xs hg ha hd
    fun names ta S ρ v hnd ea hS hm => by
      unfold gForAll
      refine Iff.trans ?_ (@decide_eq_true_iff _ (_)).symm
      constructor
      · intro hh u h1
        obtain ⟨τ, t1, t2⟩ := lift_named hnd hS hm h1
        rw [← ea τ u t2]; exact hh τ t1
      · intro hh τ h1
        obtain ⟨u, u1, u2⟩ := drop_named hnd hS hm h1
        rw [ea τ u u2]; exact hh u u1

/-! ### New kernels -/

theorem getOrAdd_spec {P : Par} {w : W α} {own : Nat → Nat} (hg : Good P w own) (x : α) :
    (getOrAdd w x = none ∧ NoFit w [x]) ∨
    ∃ j w', getOrAdd w x = some (j, w') ∧ Good P w' own ∧ Ext own [x] w w' := by
  unfold getOrAdd
  cases hi : w.names.idxOf? x with
  | some i => exact .inr ⟨i, w, rfl, hg, .refl _ _ _⟩
  | none =>
    have hni : x ∉ w.names := List.idxOf?_eq_none_iff.1 hi
    have hnd : (w.names ++ [x]).Nodup := List.nodup_append.2 ⟨hg.nd, by simp, fun a ha b hb => by
      rw [List.mem_singleton.1 hb]; rintro rfl; exact hni ha⟩
    by_cases hn : w.k.n ≤ w.names.length
    · left
      refine ⟨by simp only [if_pos hn], fun U h1 h2 => ?_⟩
      have := (List.Nodup.subperm hnd (l₂ := U) fun x hx => by
        rcases List.mem_append.1 hx with hx | hx
        · exact h1 x hx
        · exact h2 x hx).length_le
      simp at this
      omega
    · right
      refine ⟨w.names.length, { w with names := w.names ++ [x] }, by simp only [if_neg hn],
        ⟨hg.wf, hg.own, hnd, by simp; omega⟩, ⟨rfl, rfl, ⟨[x], rfl, fun _ h => h⟩, fun _ _ _ h => h, .refl _⟩⟩

theorem order_spec {P : Par} (order : List α) {w : W α} {own : Nat → Nat} (hg : Good P w own) :
    (order.foldlM (fun w x => (getOrAdd w x).map (·.2)) w = none ∧ NoFit w order) ∨
    ∃ w', order.foldlM (fun w x => (getOrAdd w x).map (·.2)) w = some w' ∧ Good P w' own ∧ Ext own order w w' := by
  induction order generalizing w with
  | nil => exact .inr ⟨w, rfl, hg, .refl _ _ _⟩
  | cons x xs ih =>
    rw [List.foldlM_cons]
    rcases getOrAdd_spec hg x with ⟨h1, h2⟩ | ⟨j, w1, h1, h2, h3⟩
    · rw [h1]
      exact .inl ⟨rfl, fun U a b => h2 U a (by simpa using b x (by simp))⟩
    · rw [h1]
      simp only [Option.map_some, Option.bind_eq_bind, Option.bind_some]
      rcases ih h2 with ⟨d1, d2⟩ | ⟨w', d1, d2, d3⟩
      · exact .inl ⟨d1, d2.mono h3 (by simp) (by simp +contextual)⟩
      · exact .inr ⟨w', d1, d2, h3.trans d3 (fun _ h => h) (by simp) (by simp +contextual)⟩

theorem newW_spec {P : Par} (hgr : ∀ s, s < P.grow s) (num sz : Nat) (hsz : 2 ≤ sz) (order : List α) :
    (newW P num sz order = none ∧ ∀ U : List α, (∀ x ∈ order, x ∈ U) → num < U.length) ∨
    ∃ w, newW P num sz order = some w ∧ Good P w (fun _ => 0) ∧ w.k.n = num ∧ w.k.heap = [] ∧
      (∀ s r, (w.k.misc s).a = some r → 9 ≤ (w.k.misc s).c) ∧ ∀ x ∈ w.names, x ∈ order := by
  obtain ⟨k, h1, h2, h3, h4, h5, h6⟩ := newKernel_spec hgr num sz hsz
  have hs : newW P num sz order = (newKernel P num sz).bind fun k =>
    order.foldlM (fun w x => (getOrAdd w x).map (·.2)) { k := k, names := [] } := rfl
  rw [hs, h1]
  simp only [Option.bind_some]
  rcases order_spec (P := P) order (w := { k := k, names := [] }) (own := fun _ => 0) ⟨h2, h3, .nil, by simp⟩ with
    ⟨d1, d2⟩ | ⟨w', d1, d2, d3⟩
  · exact .inl ⟨d1, fun U hU => by rw [← h4]; exact d2 U (by simp) hU⟩
  · refine .inr ⟨w', d1, d2, by rw [d3.n]; exact h4, by rw [d3.heap]; exact h5, fun s r hr => Nat.le_of_not_lt fun hc => ?_, ?_⟩
    · obtain ⟨e1, _⟩ := d3.surv s r hr hc
      have := h6 s r (e1 ▸ hr)
      rw [e1] at hc
      have hc : (k.misc s).c < 9 := hc
      omega
    · obtain ⟨ys, e, hy⟩ := d3.names
      rw [e]; simpa using hy

end Verif.Bdd
