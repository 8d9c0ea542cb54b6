import Verif.Bdd.Api
import Mathlib.Data.List.Perm.Subperm
import Mathlib.Data.List.Nodup
/-
The functions that build BDDs compute the right Boolean functions and keep the BDDs of the caller.
-/
namespace Verif.Bdd
open Verif
set_option linter.unusedSectionVars false
variable {α σ : Type} [DecidableEq α]

/-- the node `i` represents the Boolean function `g` of the named variables: in the unfolding of the node table, the
variable at position `j` of the order decides at level `j`, whatever the variables without a name are -/
def Den (w : W α) (i : Nat) (g : (α → Bool) → Bool) : Prop :=
  ∃ t, Rep w.k.nd i t ∧
    ∀ (ρ : Nat → Bool) (v : α → Bool), (∀ (j : Nat) x, w.names[j]? = some x → ρ j = v x) → t.eval ρ = g v

structure Good (P : Par) (w : W α) (own : Nat → Nat) : Prop where
  wf : Wf P w.k
  own : Owned w.k own
  nd : w.names.Nodup
  len : w.names.length ≤ w.k.n

/-- what a call keeps: the nodes with owners; `V` are the variables that may be added -/
structure Ext (own : Nat → Nat) (V : List α) (w w' : W α) : Prop where
  n : w'.k.n = w.k.n
  heap : w'.k.heap = w.k.heap
  names : ∃ ys, w'.names = w.names ++ ys ∧ ∀ y ∈ ys, y ∈ V
  rep : ∀ i t, 0 < own i → Rep w.k.nd i t → Rep w'.k.nd i t
  surv : Surv w.k w'.k

theorem Ext.refl (own : Nat → Nat) (V : List α) (w : W α) : Ext own V w w :=
  ⟨rfl, rfl, ⟨[], by simp⟩, fun _ _ _ h => h, .refl _⟩

theorem Ext.trans {own own' : Nat → Nat} {V V' V'' : List α} {w w1 w2 : W α} (h : Ext own V w w1)
    (g : Ext own' V' w1 w2) (hle : ∀ i, 0 < own i → 0 < own' i) (hV : ∀ x ∈ V, x ∈ V'') (hV' : ∀ x ∈ V', x ∈ V'') :
    Ext own V'' w w2 := by
  obtain ⟨ys, h1, h2⟩ := h.names
  obtain ⟨zs, g1, g2⟩ := g.names
  refine ⟨g.n.trans h.n, g.heap.trans h.heap, ⟨ys ++ zs, by rw [g1, h1, List.append_assoc], fun y hy => ?_⟩,
    fun i t ho hr => g.rep i t (hle i ho) (h.rep i t ho hr), h.surv.trans g.surv⟩
  rcases List.mem_append.1 hy with hy | hy
  · exact hV y (h2 y hy)
  · exact hV' y (g2 y hy)

/-- an owned BDD keeps its function -/
theorem Ext.den {own : Nat → Nat} {V : List α} {w w' : W α} (h : Ext own V w w') {i : Nat} (ho : 0 < own i)
    {g : (α → Bool) → Bool} (hd : Den w i g) : Den w' i g := by
  obtain ⟨t, h1, h2⟩ := hd
  obtain ⟨ys, e, _⟩ := h.names
  refine ⟨t, h.rep i t ho h1, fun ρ v hh => h2 ρ v fun j x hx => hh j x ?_⟩
  rw [e]
  rw [List.getElem?_append_left (by
    obtain ⟨hl, _⟩ := List.getElem?_eq_some_iff.1 hx
    exact hl)]
  exact hx

theorem Ext.fits {own : Nat → Nat} {V : List α} {w w' : W α} (h : Ext own V w w') {U : List α}
    (h1 : ∀ x ∈ w.names, x ∈ U) (h2 : ∀ x ∈ V, x ∈ U) : ∀ x ∈ w'.names, x ∈ U := by
  obtain ⟨ys, e, hy⟩ := h.names
  intro x hx
  rw [e] at hx
  rcases List.mem_append.1 hx with hx | hx
  · exact h1 x hx
  · exact h2 x (hy x hx)

/-- the kernel has too few variables for the named ones and `V` -/
def NoFit (w : W α) (V : List α) : Prop :=
  ∀ U : List α, (∀ x ∈ w.names, x ∈ U) → (∀ x ∈ V, x ∈ U) → w.k.n < U.length

theorem NoFit.mono {own : Nat → Nat} {V V' V'' : List α} {w w' : W α} (h : NoFit w' V') (he : Ext own V w w')
    (hV : ∀ x ∈ V, x ∈ V'') (hV' : ∀ x ∈ V', x ∈ V'') : NoFit w V'' := fun U h1 h2 => by
  rw [← he.n]
  exact h U (he.fits h1 fun x hx => h2 x (hV x hx)) fun x hx => h2 x (hV' x hx)

theorem Owned.mono {k : K} {own own' : Nat → Nat} (h : Owned k own) (hle : ∀ i, own' i ≤ own i) : Owned k own' :=
  fun i h2 => ⟨(h i h2).1, (h i h2).2.imp id fun h => Nat.le_trans (hle i) h⟩

theorem Good.mono {P : Par} {w : W α} {own own' : Nat → Nat} (h : Good P w own) (hle : ∀ i, own' i ≤ own i) :
    Good P w own' := ⟨h.wf, h.own.mono hle, h.nd, h.len⟩

theorem Ext.mono {own own' : Nat → Nat} {V V' : List α} {w w' : W α} (h : Ext own V w w')
    (hle : ∀ i, 0 < own' i → 0 < own i) (hV : ∀ x ∈ V, x ∈ V') : Ext own' V' w w' := by
  obtain ⟨ys, e, hy⟩ := h.names
  exact ⟨h.n, h.heap, ⟨ys, e, fun y h => hV y (hy y h)⟩, fun i t ho => h.rep i t (hle i ho), h.surv⟩

theorem inc_pos {own : Nat → Nat} {x i : Nat} (h : 0 < own i) : 0 < inc own x i := by
  unfold inc upd; split
  · omega
  · exact h
theorem inc_le (own : Nat → Nat) (x i : Nat) : own i ≤ inc own x i := by
  unfold inc upd; split
  · next h => rw [h]; omega
  · omega
theorem inc_self {own : Nat → Nat} {x : Nat} : 0 < inc own x x := by simp [inc]

/-! ### Literals -/

theorem litNode_spec {P : Par} {w : W α} {own : Nat → Nat} (hg : Good P w own) (l : Lit α) :
    (litNode w l = none ∧ NoFit w [l.var]) ∨
    ∃ p w', litNode w l = some (p, w') ∧ w'.k = w.k ∧ Good P w' (inc own p) ∧ Ext own [l.var] w w' ∧
      (w'.k.nd p).ref = maxref ∧ Den w' p (fun v => l.eval v) ∧
      ∃ j : Nat, w'.names[j]? = some l.var ∧ Rep w'.k.nd p (T.var j l.pos) := by
  have key : ∀ (j : Nat) (w' : W α), w'.k = w.k → w'.names[j]? = some l.var → Good P w' own →
      Ext own [l.var] w w' → getOrAdd w l.var = some (j, w') →
      ∃ p w', litNode w l = some (p, w') ∧ w'.k = w.k ∧ Good P w' (inc own p) ∧ Ext own [l.var] w w' ∧
      (w'.k.nd p).ref = maxref ∧ Den w' p (fun v => l.eval v) ∧
      ∃ j : Nat, w'.names[j]? = some l.var ∧ Rep w'.k.nd p (T.var j l.pos) := by
    intro j w' hk hj hg' he hget
    have hjl : j < w'.k.vars.length := by
      obtain ⟨h, _⟩ := List.getElem?_eq_some_iff.1 hj
      rw [hg'.wf.vlen]
      exact Nat.lt_of_lt_of_le h hg'.len
    obtain ⟨p, q, hpq⟩ : ∃ p q, w'.k.vars[j]? = some (p, q) := ⟨_, _, List.getElem?_eq_getElem hjl⟩
    obtain ⟨d1, d2, d3, d4⟩ := hg'.wf.vars j p q hpq
    have fin : ∀ x, litNode w l = some (x, w') → (w'.k.nd x).ref = maxref → Rep w'.k.nd x (T.var j l.pos) →
        ∃ p w', litNode w l = some (p, w') ∧ w'.k = w.k ∧ Good P w' (inc own p) ∧ Ext own [l.var] w w' ∧
        (w'.k.nd p).ref = maxref ∧ Den w' p (fun v => l.eval v) ∧
        ∃ j : Nat, w'.names[j]? = some l.var ∧ Rep w'.k.nd p (T.var j l.pos) := by
      intro x h1 h2 h3
      refine ⟨x, w', h1, hk, ⟨hg'.wf, fun i hi => ?_, hg'.nd, hg'.len⟩, he, h2, ⟨_, h3, fun ρ v hh => ?_⟩, j, hj, h3⟩
      · by_cases hix : i = x
        · subst hix; exact ⟨(hg'.own i hi).1, .inl h2⟩
        · unfold inc; rw [upd_ne _ _ hix]; exact hg'.own i hi
      · have := hh j _ hj
        simp only [T.var, T.eval, this, Lit.eval]
        cases l.pos <;> cases v l.var <;> rfl
    cases hp : l.pos with
    | true =>
      refine hp ▸ fin p ?_ d1 (by rw [hp]; exact d3)
      simp only [litNode, hget, Option.bind_eq_bind, Option.bind_some, hp, ithVar, hpq, if_true, Option.map_some]
      rfl
    | false =>
      refine hp ▸ fin q ?_ d2 (by rw [hp]; exact d4)
      simp only [litNode, hget, Option.bind_eq_bind, Option.bind_some, hp, nithVar, hpq, Option.map_some]
      rfl
  cases hi : w.names.idxOf? l.var with
  | some i =>
    right
    have hget : getOrAdd w l.var = some (i, w) := by unfold getOrAdd; rw [hi]
    refine key i w rfl ?_ hg (.refl _ _ _) hget
    have := List.idxOf?_eq_some_iff.1 hi
    obtain ⟨h1, h2, _⟩ := this
    rw [List.getElem?_eq_getElem h1]
    simpa using h2
  | none =>
    have hni : l.var ∉ w.names := List.idxOf?_eq_none_iff.1 hi
    have hnd : (w.names ++ [l.var]).Nodup := by
      rw [List.nodup_append]
      exact ⟨hg.nd, by simp, fun a ha b hb => by
        rw [List.mem_singleton.1 hb]; rintro rfl; exact hni ha⟩
    by_cases hn : w.k.n ≤ w.names.length
    · left
      refine ⟨?_, fun U h1 h2 => ?_⟩
      · unfold litNode getOrAdd
        rw [hi]
        simp only [if_pos hn]
        rfl
      · have := (List.Nodup.subperm hnd (l₂ := U) fun x hx => by
          rcases List.mem_append.1 hx with hx | hx
          · exact h1 x hx
          · exact h2 x hx).length_le
        simp at this
        omega
    · right
      refine key w.names.length { w with names := w.names ++ [l.var] } rfl (by simp)
        ⟨hg.wf, hg.own, hnd, by simp; omega⟩ ⟨rfl, rfl, ⟨[l.var], rfl, fun _ h => h⟩, fun _ _ _ h => h, .refl _⟩ ?_
      unfold getOrAdd
      rw [hi]
      simp only [if_neg hn]

/-! ### Operations on owned operands -/

theorem Same.den {w : W α} {k' : K} (hs : Same w.k k') {i : Nat} (hp : HP w.k i) {g : (α → Bool) → Bool} (hd : Den w i g) :
    Den { w with k := k' } i g := by
  obtain ⟨t, h1, h2⟩ := hd
  exact ⟨t, hs.rep hp h1, h2⟩

theorem kapply_den {P : Par} (hgr : ∀ s, s < P.grow s) (op : Bop) {w : W α} {own : Nat → Nat} (hg : Good P w own)
    {a b : Nat} (ha : 0 < own a) (hb : 0 < own b) {fa fb : (α → Bool) → Bool} (da : Den w a fa) (db : Den w b fb) :
    ∃ x k', kapply P op w.k a b = some (x, k') ∧ Good P { w with k := k' } own ∧ Ext own [] w { w with k := k' } ∧
      Den { w with k := k' } x (fun v => op.f (fa v) (fb v)) := by
  obtain ⟨ta, r1, e1⟩ := da
  obtain ⟨tb, r2, e2⟩ := db
  obtain ⟨x, k', t, h1, h2, h3, h4, h5⟩ := kapply_spec hgr op hg.wf (hg.own.prot ha) (hg.own.prot hb) r1 r2
  refine ⟨x, k', h1, ⟨h2, hg.own.same h3, hg.nd, ?_⟩, ⟨h3.n, h3.heap, ⟨[], by simp⟩, fun i t ho hr => ?_, h3.surv⟩, t, h4,
    fun ρ v hh => ?_⟩
  · show _ ≤ k'.n
    rw [h3.n]; exact hg.len
  · exact h3.rep (hg.own.prot ho) hr
  · rw [h5, e1 ρ v hh, e2 ρ v hh]

theorem knot_den {P : Par} (hgr : ∀ s, s < P.grow s) {w : W α} {own : Nat → Nat} (hg : Good P w own)
    {a : Nat} (ha : 0 < own a) {fa : (α → Bool) → Bool} (da : Den w a fa) :
    ∃ x k', knot P w.k a = some (x, k') ∧ Good P { w with k := k' } own ∧ Ext own [] w { w with k := k' } ∧
      Den { w with k := k' } x (fun v => !fa v) := by
  obtain ⟨ta, r1, e1⟩ := da
  obtain ⟨x, k', t, h1, h2, h3, h4, h5⟩ := knot_spec hgr hg.wf (hg.own.prot ha) r1
  refine ⟨x, k', h1, ⟨h2, hg.own.same h3, hg.nd, ?_⟩, ⟨h3.n, h3.heap, ⟨[], by simp⟩, fun i t ho hr => ?_, h3.surv⟩, t, h4,
    fun ρ v hh => ?_⟩
  · show _ ≤ k'.n
    rw [h3.n]; exact hg.len
  · exact h3.rep (hg.own.prot ho) hr
  · rw [h5, e1 ρ v hh]

theorem addRef_den {P : Par} {w : W α} {own : Nat → Nat} (hg : Good P w own) {x : Nat} {g : (α → Bool) → Bool}
    (hd : Den w x g) : ∃ k', addRef w.k x = some k' ∧ Good P { w with k := k' } (inc own x) ∧
      (∀ own', Ext own' [] w { w with k := k' }) ∧ ∀ i g, Den w i g → Den { w with k := k' } i g := by
  obtain ⟨t, r1, _⟩ := hd
  obtain ⟨k', h1, h2, h3, h4, h5, h6, hmi, h7⟩ := addRef_spec hg.wf hg.own r1
  refine ⟨k', h1, ⟨h2, h3, hg.nd, by show _ ≤ k'.n; rw [h4]; exact hg.len⟩,
    fun _ => ⟨h4, h6, ⟨[], by simp⟩, fun i t _ hr => (h7 i t).2 hr,
      fun s r _ _ => ⟨by show k'.misc s = _; rw [hmi], fun t h => (h7 r t).2 h⟩⟩, fun i g ⟨t, r, e⟩ => ⟨t, (h7 i t).2 r, e⟩⟩

theorem delRef_den {P : Par} {w : W α} {own : Nat → Nat} (hg : Good P w own) {x : Nat} (hx : 0 < own x) :
    ∃ k', delRef w.k x = some k' ∧ Good P { w with k := k' } (dec own x) ∧
      (∀ own', Ext own' [] w { w with k := k' }) ∧ ∀ i g, Den w i g → Den { w with k := k' } i g := by
  obtain ⟨k', h1, h2, h3, h4, h5, h6, hmi, h7⟩ := delRef_spec hg.wf hg.own (.inl hx)
  refine ⟨k', h1, ⟨h2, h3, hg.nd, by show _ ≤ k'.n; rw [h4]; exact hg.len⟩,
    fun _ => ⟨h4, h6, ⟨[], by simp⟩, fun i t _ hr => (h7 i t).2 hr,
      fun s r _ _ => ⟨by show k'.misc s = _; rw [hmi], fun t h => (h7 r t).2 h⟩⟩, fun i g ⟨t, r, e⟩ => ⟨t, (h7 i t).2 r, e⟩⟩

/-- ownership after a combination of `a` and `b` to `x` -/
theorem own_combine (own : Nat → Nat) (a b x i : Nat) :
    inc own x i ≤ dec (dec (inc (inc (inc own a) b) x) a) b i := by
  unfold inc dec upd
  by_cases h1 : i = a <;> by_cases h2 : i = b <;> by_cases h3 : i = x <;> simp_all
  all_goals (try (split <;> omega))

theorem own_combine0 (own : Nat → Nat) (a b i : Nat) :
    own i ≤ dec (dec (inc (inc own a) b) a) b i := by
  unfold inc dec upd
  by_cases h1 : i = a <;> by_cases h2 : i = b <;> simp_all
  all_goals (try (split <;> omega))

/-! ### Compilation -/

/-- result of a computation that owned `own` before: the new BDD represents `g` -/
def Res (P : Par) (own : Nat → Nat) (o : Option Nat) (w : W α) (g : (α → Bool) → Bool) : Prop :=
  match o with
  | none => Good P w own
  | some x => Good P w (inc own x) ∧ Den w x g

/-- the computation `c` panics only for lack of variables; otherwise it is cancelled or yields a BDD for `g` -/
def Does (P : Par) (c : R α σ) (own : Nat → Nat) (w : W α) (V : List α) (g : (α → Bool) → Bool) : Prop :=
  (c = none ∧ NoFit w V) ∨ ∃ o w' s', c = some (o, w', s') ∧ Ext own V w w' ∧ Res P own o w' g

theorem Does.mono {P : Par} {c : R α σ} {own : Nat → Nat} {w : W α} {V V' : List α} {g : (α → Bool) → Bool}
    (h : Does P c own w V g) (hV : ∀ x ∈ V, x ∈ V') : Does P c own w V' g := by
  rcases h with ⟨h1, h2⟩ | ⟨o, w', s', h1, h2, h3⟩
  · exact .inl ⟨h1, fun U a b => h2 U a fun x hx => b x (hV x hx)⟩
  · exact .inr ⟨o, w', s', h1, h2.mono (fun _ h => h) hV, h3⟩

theorem andThen_spec {P : Par} {c : R α σ} {own : Nat → Nat} {w : W α} {V V' : List α} {g g' : (α → Bool) → Bool}
    {f : Nat → W α → σ → R α σ} (h : Does P c own w V g)
    (hf : ∀ a w1 s1, Good P w1 (inc own a) → Den w1 a g → Ext own V w w1 → Does P (f a w1 s1) own w1 V' g') :
    Does P (andThen c f) own w (V ++ V') g' := by
  rcases h with ⟨h1, h2⟩ | ⟨o, w1, s1, h1, h2, h3⟩
  · exact .inl ⟨by rw [h1]; rfl, fun U a b => h2 U a fun x hx => b x (List.mem_append_left _ hx)⟩
  · cases o with
    | none =>
      exact .inr ⟨none, w1, s1, by rw [h1]; rfl, h2.mono (fun _ h => h) fun x hx => List.mem_append_left _ hx, h3⟩
    | some a =>
      rcases hf a w1 s1 h3.1 h3.2 h2 with ⟨d1, d2⟩ | ⟨o, w2, s2, d1, d2, d3⟩
      · exact .inl ⟨by rw [h1]; exact d1, d2.mono h2 (fun x hx => List.mem_append_left _ hx)
          fun x hx => List.mem_append_right _ hx⟩
      · exact .inr ⟨o, w2, s2, by rw [h1]; exact d1, h2.trans d2 (fun _ h => h)
          (fun x hx => List.mem_append_left _ hx) fun x hx => List.mem_append_right _ hx, d3⟩

/-- the same with a further BDD `a`, which is given up in the second computation -/
theorem andThen2_spec {P : Par} {c : R α σ} {own : Nat → Nat} {w : W α} {V V' : List α} {g ga g' : (α → Bool) → Bool}
    {a : Nat} {f : Nat → W α → σ → R α σ} (h : Does P c (inc own a) w V g) (ha : Den w a ga)
    (hf : ∀ b w1 s1, Good P w1 (inc (inc own a) b) → Den w1 a ga → Den w1 b g → Does P (f b w1 s1) own w1 V' g') :
    Does P (andThen c f) own w (V ++ V') g' := by
  rcases h with ⟨h1, h2⟩ | ⟨o, w1, s1, h1, h2, h3⟩
  · exact .inl ⟨by rw [h1]; rfl, fun U a b => h2 U a fun x hx => b x (List.mem_append_left _ hx)⟩
  · have h2' : Ext own V w w1 := h2.mono (fun _ h => inc_pos h) fun _ h => h
    cases o with
    | none =>
      exact .inr ⟨none, w1, s1, by rw [h1]; rfl, h2'.mono (fun _ h => h) fun x hx => List.mem_append_left _ hx,
        Good.mono (own := inc own a) h3 fun i => inc_le _ _ _⟩
    | some b =>
      rcases hf b w1 s1 h3.1 (h2.den inc_self ha) h3.2 with ⟨d1, d2⟩ | ⟨o, w2, s2, d1, d2, d3⟩
      · exact .inl ⟨by rw [h1]; exact d1, d2.mono h2' (fun x hx => List.mem_append_left _ hx)
          fun x hx => List.mem_append_right _ hx⟩
      · exact .inr ⟨o, w2, s2, by rw [h1]; exact d1, h2'.trans d2 (fun _ h => h)
          (fun x hx => List.mem_append_left _ hx) fun x hx => List.mem_append_right _ hx, d3⟩

theorem addRefH_spec {P : Par} (h : σ → Bool × σ) {w : W α} {own : Nat → Nat} (hg : Good P w own) {x : Nat}
    {g : (α → Bool) → Bool} (hd : Den w x g) (s : σ) :
    ∃ o w', addRefH h w x s = some (o, w', (h s).2) ∧ Ext own [] w w' ∧ (∀ i g, Den w i g → Den w' i g) ∧
      (o = none ∧ Good P w' own ∨ o = some x ∧ Good P w' (inc own x)) := by
  unfold addRefH
  cases (h s).1 with
  | false => exact ⟨none, w, rfl, .refl _ _ _, fun _ _ h => h, .inl ⟨rfl, hg⟩⟩
  | true =>
    obtain ⟨k', h1, h2, h3, h4⟩ := addRef_den hg hd
    exact ⟨some x, { w with k := k' }, by rw [h1]; rfl, h3 own, h4, .inr ⟨rfl, h2⟩⟩

theorem combine_spec {P : Par} (hgr : ∀ s, s < P.grow s) (h : σ → Bool × σ) (op : Bop) {w : W α} {own : Nat → Nat}
    {a b : Nat} (hg : Good P w (inc (inc own a) b)) {fa fb : (α → Bool) → Bool} (da : Den w a fa) (db : Den w b fb)
    (s : σ) : Does P (combine P h op w s a b) own w [] fun v => op.f (fa v) (fb v) := by
  obtain ⟨x, k1, h1, h2, h3, h4⟩ := kapply_den hgr op hg (inc_pos inc_self) inc_self da db
  obtain ⟨o, w2, g1, g2, g3, g4⟩ := addRefH_spec h h2 h4 s
  right
  have key : ∀ own2, Good P w2 own2 → (∀ i, inc (inc own a) b i ≤ own2 i) →
      ∃ w', combine P h op w s a b = some (o, w', (h s).2) ∧ Ext own [] w w' ∧ Good P w' (dec (dec own2 a) b) ∧
        Den w2 x (fun v => op.f (fa v) (fb v)) ∧ ∀ i g, Den w2 i g → Den w' i g := by
    intro own2 hg2 hle
    have ha : 0 < own2 a := Nat.lt_of_lt_of_le (inc_pos inc_self) (hle a)
    obtain ⟨k3, d1, d2, d3, d4⟩ := delRef_den hg2 ha
    have hb : 0 < dec own2 a b := by
      have h1 := hle b
      have h2 := hle a
      unfold inc dec upd at *
      by_cases hab : b = a
      · subst hab; simp_all; omega
      · simp_all; omega
    obtain ⟨k4, e1, e2, e3, e4⟩ := delRef_den (w := { w2 with k := k3 }) d2 hb
    refine ⟨{ w2 with k := k4 }, ?_, ?_, e2, g3 _ _ h4, fun i g hd => e4 i g (d4 i g hd)⟩
    · simp only [combine, Option.bind_eq_bind, h1, Option.bind_some, g1, d1, e1]
      rfl
    · have hpos : ∀ i, 0 < own i → 0 < inc (inc own a) b i := fun i h => inc_pos (inc_pos h)
      have a1 : Ext own [] w w2 := (h3.trans g2 (fun _ h => h) (by simp) (by simp)).mono hpos fun _ h => h
      exact (a1.trans (V'' := []) (d3 own) (fun _ h => h) (by simp) (by simp)).trans (V'' := [])
        (e3 own) (fun _ h => h) (by simp) (by simp)
  rcases g4 with ⟨rfl, g4⟩ | ⟨rfl, g4⟩
  · obtain ⟨w', c1, c2, c3, _⟩ := key _ g4 fun _ => Nat.le_refl _
    exact ⟨none, w', _, c1, c2, c3.mono fun i => own_combine0 own a b i⟩
  · obtain ⟨w', c1, c2, c3, c4, c5⟩ := key _ g4 fun i => inc_le _ _ _
    exact ⟨some x, w', _, c1, c2, c3.mono fun i => own_combine own a b x i, c5 _ _ c4⟩

theorem negate_spec {P : Par} (hgr : ∀ s, s < P.grow s) (h : σ → Bool × σ) {w : W α} {own : Nat → Nat}
    {a : Nat} (hg : Good P w (inc own a)) {fa : (α → Bool) → Bool} (da : Den w a fa)
    (s : σ) : Does P (negate P h w s a) own w [] fun v => !fa v := by
  obtain ⟨x, k1, h1, h2, h3, h4⟩ := knot_den hgr hg inc_self da
  obtain ⟨o, w2, g1, g2, g3, g4⟩ := addRefH_spec h h2 h4 s
  right
  have key : ∀ own2, Good P w2 own2 → (∀ i, inc own a i ≤ own2 i) →
      ∃ w', negate P h w s a = some (o, w', (h s).2) ∧ Ext own [] w w' ∧ Good P w' (dec own2 a) ∧
        Den w2 x (fun v => !fa v) ∧ ∀ i g, Den w2 i g → Den w' i g := by
    intro own2 hg2 hle
    have ha : 0 < own2 a := Nat.lt_of_lt_of_le inc_self (hle a)
    obtain ⟨k3, d1, d2, d3, d4⟩ := delRef_den hg2 ha
    refine ⟨{ w2 with k := k3 }, ?_, ?_, d2, g3 _ _ h4, d4⟩
    · simp only [negate, Option.bind_eq_bind, h1, Option.bind_some, g1, d1]
      rfl
    · have a1 : Ext own [] w w2 := (h3.trans g2 (fun _ h => h) (by simp) (by simp)).mono (fun i h => inc_pos h)
        fun _ h => h
      exact a1.trans (d3 own) (fun _ h => h) (by simp) (by simp)
  rcases g4 with ⟨rfl, g4⟩ | ⟨rfl, g4⟩
  · obtain ⟨w', c1, c2, c3, _⟩ := key _ g4 fun _ => Nat.le_refl _
    refine ⟨none, w', _, c1, c2, c3.mono fun i => ?_⟩
    unfold inc dec upd
    split <;> simp_all
  · obtain ⟨w', c1, c2, c3, c4, c5⟩ := key _ g4 fun i => inc_le _ _ _
    refine ⟨some x, w', _, c1, c2, c3.mono fun i => ?_, c5 _ _ c4⟩
    unfold inc dec upd
    by_cases h1 : i = a <;> by_cases h2 : i = x <;> simp_all

mutual
/-- conjunctions and disjunctions have operands, constraints satisfy `C` -/
def Ok (C : Fm α → Prop) : Fm α → Prop
  | .fls => True
  | .tru => True
  | .lit _ => True
  | .not f => Ok C f
  | .and fs => fs ≠ [] ∧ OkL C fs
  | .or fs => fs ≠ [] ∧ OkL C fs
  | .impl f g => Ok C f ∧ Ok C g
  | .equiv f g => Ok C f ∧ Ok C g
  | .cc c k xs => C (.cc c k xs)
  | .pbc c k ts => C (.pbc c k ts)
def OkL (C : Fm α → Prop) : List (Fm α) → Prop
  | [] => True
  | f :: fs => Ok C f ∧ OkL C fs
end

/-- value of the operands of a conjunction or disjunction from the left -/
def evalL (op : Bop) (v : α → Bool) (b : Bool) (fs : List (Fm α)) : Bool := fs.foldl (fun b f => op.f b (f.eval v)) b

theorem evalL_and (v : α → Bool) (b : Bool) (fs : List (Fm α)) : evalL .and v b fs = (b && fs.all (Fm.eval v)) := by
  unfold evalL
  induction fs generalizing b with
  | nil => simp
  | cons f fs ih => rw [List.foldl_cons, ih]; simp [Bop.f, Bool.and_assoc]

theorem evalL_or (v : α → Bool) (b : Bool) (fs : List (Fm α)) : evalL .or v b fs = (b || fs.any (Fm.eval v)) := by
  unfold evalL
  induction fs generalizing b with
  | nil => simp
  | cons f fs ih => rw [List.foldl_cons, ih]; simp [Bop.f, Bool.or_assoc]

section
variable {P : Par} (hgr : ∀ s, s < P.grow s) (h : σ → Bool × σ) (enc : Fm α → W α → σ → R α σ)
include hgr

mutual
theorem compileW_spec : ∀ (φ : Fm α) {own : Nat → Nat} {w : W α} (s : σ),
    Ok (fun ψ => ∀ own w s, Good P w own → Does P (enc ψ w s) own w ψ.vars fun v => ψ.eval v) φ → Good P w own →
    Does P (compileW P h enc φ w s) own w φ.vars fun v => φ.eval v
  | .fls, own, w, s, _, hg => .inr ⟨some 0, w, s, rfl, .refl _ _ _, ⟨hg.wf, fun i hi => by
      unfold inc; rw [upd_ne _ _ (by omega)]; exact hg.own i hi, hg.nd, hg.len⟩, .leaf false, .ff, fun _ _ _ => by simp [T.eval]⟩
  | .tru, own, w, s, _, hg => .inr ⟨some 1, w, s, rfl, .refl _ _ _, ⟨hg.wf, fun i hi => by
      unfold inc; rw [upd_ne _ _ (by omega)]; exact hg.own i hi, hg.nd, hg.len⟩, .leaf true, .tt, fun _ _ _ => by simp [T.eval]⟩
  | .lit l, own, w, s, _, hg => by
    unfold compileW
    rcases litNode_spec hg l with ⟨h1, h2⟩ | ⟨p, w', h1, _, h2, h3, _, h4, _⟩
    · exact .inl ⟨by rw [h1]; rfl, by simpa [Fm.vars] using h2⟩
    · refine .inr ⟨some p, w', s, by rw [h1]; rfl, by simpa [Fm.vars] using h3, h2, by simpa using h4⟩
  | .not f, own, w, s, ho, hg => by
    unfold compileW
    have := andThen_spec (f := fun a w s => negate P h w s a) (compileW_spec f s (by simpa [Ok] using ho) hg)
      fun a w1 s1 g d e => negate_spec hgr h g d s1
    simpa [Fm.vars] using this
  | .impl f g, own, w, s, ho, hg => by
    simp only [Ok] at ho
    unfold compileW
    have := andThen_spec (V' := g.vars ++ []) (g' := fun v => Bop.imp.f (f.eval v) (g.eval v))
      (f := fun a w s => andThen (compileW P h enc g w s) fun b w s => combine P h .imp w s a b)
      (compileW_spec f s ho.1 hg) fun a w1 s1 g1 d1 _ =>
        andThen2_spec (f := fun b w s => combine P h .imp w s a b) (compileW_spec g s1 ho.2 g1) d1
          fun b w2 s2 g2 da db => combine_spec hgr h .imp g2 da db s2
    simpa [Fm.vars, Bop.f] using this
  | .equiv f g, own, w, s, ho, hg => by
    simp only [Ok] at ho
    unfold compileW
    have := andThen_spec (V' := g.vars ++ []) (g' := fun v => Bop.equiv.f (f.eval v) (g.eval v))
      (f := fun a w s => andThen (compileW P h enc g w s) fun b w s => combine P h .equiv w s a b)
      (compileW_spec f s ho.1 hg) fun a w1 s1 g1 d1 _ =>
        andThen2_spec (f := fun b w s => combine P h .equiv w s a b) (compileW_spec g s1 ho.2 g1) d1
          fun b w2 s2 g2 da db => combine_spec hgr h .equiv g2 da db s2
    simpa [Fm.vars, Bop.f] using this
  | .and [], own, w, s, ho, hg => by simp [Ok] at ho
  | .and (f :: fs), own, w, s, ho, hg => by
    simp only [Ok, OkL] at ho
    unfold compileW compileN
    have := andThen_spec (V' := Fm.varsL fs) (g' := fun v => evalL .and v (f.eval v) fs)
      (f := fun a w s => compileL P h enc .and fs a w s)
      (compileW_spec f s ho.2.1 hg) fun a w1 s1 g1 d1 _ => compileL_spec .and fs s1 ho.2.2 g1 d1
    simpa [Fm.vars, Fm.varsL, evalL_and] using this
  | .or [], own, w, s, ho, hg => by simp [Ok] at ho
  | .or (f :: fs), own, w, s, ho, hg => by
    simp only [Ok, OkL] at ho
    unfold compileW compileN
    have := andThen_spec (V' := Fm.varsL fs) (g' := fun v => evalL .or v (f.eval v) fs)
      (f := fun a w s => compileL P h enc .or fs a w s)
      (compileW_spec f s ho.2.1 hg) fun a w1 s1 g1 d1 _ => compileL_spec .or fs s1 ho.2.2 g1 d1
    simpa [Fm.vars, Fm.varsL, evalL_or] using this
  | .cc c k xs, own, w, s, ho, hg => by
    unfold compileW
    simp only [Ok] at ho
    exact ho own w s hg
  | .pbc c k ts, own, w, s, ho, hg => by
    unfold compileW
    simp only [Ok] at ho
    exact ho own w s hg
theorem compileL_spec : ∀ (op : Bop) (fs : List (Fm α)) {own : Nat → Nat} {w : W α} {a : Nat} {g : (α → Bool) → Bool} (s : σ),
    OkL (fun ψ => ∀ own w s, Good P w own → Does P (enc ψ w s) own w ψ.vars fun v => ψ.eval v) fs →
    Good P w (inc own a) → Den w a g → Does P (compileL P h enc op fs a w s) own w (Fm.varsL fs) fun v => evalL op v (g v) fs
  | op, [], own, w, a, g, s, _, hg, hd => .inr ⟨some a, w, s, rfl, .refl _ _ _, hg, hd⟩
  | op, f :: fs, own, w, a, g, s, ho, hg, hd => by
    simp only [OkL] at ho
    unfold compileL
    have := andThen2_spec (V' := [] ++ Fm.varsL fs) (g' := fun v => evalL op v (op.f (g v) (f.eval v)) fs)
      (f := fun b w s => andThen (combine P h op w s a b) fun x w s => compileL P h enc op fs x w s)
      (compileW_spec f s ho.1 hg) hd fun b w1 s1 g1 da db =>
        andThen_spec (f := fun x w s => compileL P h enc op fs x w s) (combine_spec hgr h op g1 da db s1)
          fun x w2 s2 g2 dx _ => compileL_spec op fs s2 ho.2 g2 dx
    simpa [Fm.varsL, evalL] using this
end
end

end Verif.Bdd
