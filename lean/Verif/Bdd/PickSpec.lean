import Verif.Bdd.Pick
import Verif.Bdd.ReadSpec
/-
The functions that pick a model of a BDD build the BDD of a term that implies the BDD.
-/
namespace Verif.Bdd
open Verif
set_option linter.unusedSectionVars false
variable {α : Type} [DecidableEq α]

/-! ### Terms -/

/-- the tree of a term -/
def chain : List (Nat × Bool) → T
  | [] => .leaf true
  | (l, true) :: L => .node l (.leaf false) (chain L)
  | (l, false) :: L => .node l (chain L) (.leaf false)

/-- increasing levels from `m` on -/
def Inc (n : Nat) : Nat → List (Nat × Bool) → Prop
  | _, [] => True
  | m, p :: L => m ≤ p.1 ∧ p.1 < n ∧ Inc n (p.1 + 1) L

/-- the term implies the tree -/
def Imp (L : List (Nat × Bool)) (t : T) : Prop := ∀ ρ : Nat → Bool, (∀ p ∈ L, ρ p.1 = p.2) → t.eval ρ = true

theorem chain_ne : ∀ L, chain L ≠ .leaf false
  | [] => by simp [chain]
  | (l, true) :: L => by simp [chain]
  | (l, false) :: L => by simp [chain]

theorem Inc.mono {n m m' : Nat} {L : List (Nat × Bool)} (h : Inc n m L) (hm : m' ≤ m) : Inc n m' L := by
  cases L with
  | nil => trivial
  | cons p L => exact ⟨Nat.le_trans hm h.1, h.2⟩

theorem Inc.bounds {n : Nat} : ∀ {L : List (Nat × Bool)} {m : Nat}, Inc n m L → ∀ p ∈ L, m ≤ p.1 ∧ p.1 < n
  | [], _, _, p, hp => by cases hp
  | q :: L, m, h, p, hp => by
    rcases List.mem_cons.1 hp with rfl | hp
    · exact ⟨h.1, h.2.1⟩
    · have := h.2.2.bounds p hp
      have := h.1
      omega

theorem Inc.nodup {n : Nat} : ∀ {L : List (Nat × Bool)} {m : Nat}, Inc n m L → (L.map (·.1)).Nodup
  | [], _, _ => by simp
  | q :: L, m, h => by
    rw [List.map_cons, List.nodup_cons]
    refine ⟨fun hq => ?_, h.2.2.nodup⟩
    obtain ⟨p, hp, e⟩ := List.mem_map.1 hq
    have := (h.2.2.bounds p hp).1
    omega

theorem Inc.ord {n : Nat} : ∀ {L : List (Nat × Bool)} {m : Nat}, Inc n m L → Ord n m (chain L)
  | [], _, _ => trivial
  | (l, true) :: L, m, h => ⟨h.1, h.2.1, (chain_ne L).symm, trivial, h.2.2.ord⟩
  | (l, false) :: L, m, h => ⟨h.1, h.2.1, chain_ne L, h.2.2.ord, trivial⟩

/-! ### What the functions keep -/

/-- the nodes protected in `k` are kept and stay protected -/
structure Grow (k k' : K) : Prop where
  n : k'.n = k.n
  refs : ∀ i, 0 < (k.nd i).ref → 0 < (k'.nd i).ref
  core : ∀ i, Prot k i → (k'.nd i).core = (k.nd i).core
  stack : ∀ i ∈ k.stack, i ∈ k'.stack

theorem Grow.refl (k : K) : Grow k k := ⟨rfl, fun _ h => h, fun _ _ => rfl, fun _ h => h⟩

theorem Grow.prot {k k' : K} (h : Grow k k') {i : Nat} (hp : Prot k i) : Prot k' i := by
  rcases hp with hp | hp
  · exact .inl hp
  · have key : ∀ i, Reach k.nd (Root k) i → Reach k'.nd (Root k') i := by
      intro i hi
      induction hi with
      | root hr => exact .root (hr.imp (h.stack _) (h.refs _))
      | low h1 h2 h3 ih =>
        obtain ⟨_, c2, _⟩ := core_iff.1 (h.core _ (.inr h1))
        exact .low ih h2 (c2.trans h3)
      | high h1 h2 h3 ih =>
        obtain ⟨_, c2, c3⟩ := core_iff.1 (h.core _ (.inr h1))
        rw [← c3]
        exact .high ih h2 (c2.trans h3)
    exact .inr (key i hp)

theorem Grow.trans {k k1 k2 : K} (h : Grow k k1) (g : Grow k1 k2) : Grow k k2 :=
  ⟨g.n.trans h.n, fun i hi => g.refs i (h.refs i hi), fun i hi => (g.core i (h.prot hi)).trans (h.core i hi),
    fun i hi => g.stack i (h.stack i hi)⟩

theorem Grow.rep {k k' : K} (h : Grow k k') {i : Nat} {t : T} (hp : Prot k i) (hr : Rep k.nd i t) : Rep k'.nd i t :=
  Rep.prot h.core hr hp

theorem Grow.lv {k k' : K} (h : Grow k k') (hv : Lv k) : Lv k' := by
  have h0 := (core_iff.1 (h.core 0 (.inl (by omega)))).1
  have h1 := (core_iff.1 (h.core 1 (.inl (by omega)))).1
  exact ⟨by rw [h0, h.n]; exact hv.1, by rw [h1, h.n]; exact hv.2⟩

theorem Keep.grow {k k' : K} (h : Keep k k') : Grow k k' :=
  ⟨h.n, fun i hi => by rw [h.refs]; exact hi, h.core, fun i hi => by rw [h.stack]; exact hi⟩

/-- `makeNode` with different children returns the node of both -/
theorem makeNode_node {P : Par} {k : K} (hg : ∀ s, s < P.grow s) (hi : Inv P k) {lvl lo h : Nat} {tl th : T}
    (pl : Prot k lo) (ph : Prot k h) (hl : Rep k.nd lo tl) (hh : Rep k.nd h th) (hne : tl ≠ th) (hn : lvl < k.n)
    (ol : Ord k.n (lvl + 1) tl) (oh : Ord k.n (lvl + 1) th) :
    ∃ x k', makeNode P k lvl lo h = some (x, k') ∧ Inv P k' ∧ Keep k k' ∧ Rep k'.nd x (.node lvl tl th) := by
  obtain ⟨x, k', t, a1, a2, a3, a4, a5, a6⟩ := makeNode_spec hg hi pl ph hl hh hn ol oh
  have : t = .node lvl tl th := Ord.canon _ _ a5 (m' := lvl) ⟨Nat.le_refl _, hn, hne, ol, oh⟩ fun ρ => by
    rw [a6]; rfl
  subst this
  exact ⟨x, k', a1, a2, a3, a4⟩

/-- a state of the construction: the term built so far -/
structure Built (P : Par) (k k' : K) (x : Nat) (m : Nat) (L : List (Nat × Bool)) (c : Nat) : Prop where
  inv : Inv P k'
  grow : Grow k k'
  rep : Rep k'.nd x (chain L)
  prot : Prot k' x
  inc : Inc k.n m L
  len : k'.stack.length ≤ k.stack.length + c

theorem mkPush_spec {P : Par} {k k1 : K} (hg : ∀ s, s < P.grow s) {x m c : Nat} {L : List (Nat × Bool)}
    (h : Built P k k1 x m L c) {lvl : Nat} (hm : lvl + 1 ≤ m) (hn : lvl < k.n) (hs : k.stack.length + c < 2 * k.n + 4) :
    (∃ y k2, mkPush P k1 lvl 0 x = some (y, k2) ∧ Built P k k2 y lvl ((lvl, true) :: L) (c + 1)) ∧
    ∃ y k2, mkPush P k1 lvl x 0 = some (y, k2) ∧ Built P k k2 y lvl ((lvl, false) :: L) (c + 1) := by
  have p0 : Prot k1 0 := .inl (by omega)
  have ho := (h.inc.mono hm).ord
  have hn1 := h.grow.n
  have push : ∀ {y k2 : _} {b : Bool}, Inv P k2 → Keep k1 k2 → Rep k2.nd y (chain ((lvl, b) :: L)) →
      ∃ k3, Bdd.push k2 y = some k3 ∧ Built P k k3 y lvl ((lvl, b) :: L) (c + 1) := by
    intro y k2 b i2 kp r2
    have hlen : k2.stack.length < 2 * k2.n + 4 := by
      rw [kp.stack, kp.n, hn1]; have := h.len; omega
    refine ⟨_, push_eq hlen, i2.push r2, ?_, r2, .top, ⟨Nat.le_refl _, hn, h.inc.mono hm⟩, ?_⟩
    · refine h.grow.trans (kp.grow.trans ⟨rfl, fun _ h => h, fun _ _ => rfl, fun i hi => List.mem_cons_of_mem _ hi⟩)
    · show (y :: k2.stack).length ≤ _
      rw [List.length_cons, kp.stack]; have := h.len; omega
  constructor
  · obtain ⟨y, k2, a1, a2, a3, a4⟩ := makeNode_node hg h.inv (lvl := lvl) p0 h.prot .ff h.rep (chain_ne L).symm
      (by rw [hn1]; exact hn) trivial (by rw [hn1]; exact ho)
    obtain ⟨k3, b1, b2⟩ := push (b := true) a2 a3 a4
    exact ⟨y, k3, by unfold mkPush; rw [a1, Option.bind_some, b1]; rfl, b2⟩
  · obtain ⟨y, k2, a1, a2, a3, a4⟩ := makeNode_node hg h.inv (lvl := lvl) h.prot p0 h.rep .ff (chain_ne L)
      (by rw [hn1]; exact hn) (by rw [hn1]; exact ho) trivial
    obtain ⟨k3, b1, b2⟩ := push (b := false) a2 a3 a4
    exact ⟨y, k3, by unfold mkPush; rw [a1, Option.bind_some, b1]; rfl, b2⟩

theorem Imp.high {v : Nat} {l h : T} {L : List (Nat × Bool)} (hi : Imp L h) : Imp ((v, true) :: L) (.node v l h) := by
  intro ρ hρ
  have h1 : ρ v = true := hρ (v, true) (by simp)
  simp only [T.eval, h1, if_true]
  exact hi ρ fun p hp => hρ p (by simp [hp])
theorem Imp.low {v : Nat} {l h : T} {L : List (Nat × Bool)} (hi : Imp L l) : Imp ((v, false) :: L) (.node v l h) := by
  intro ρ hρ
  have h1 : ρ v = false := hρ (v, false) (by simp)
  simp only [T.eval, h1]
  exact hi ρ fun p hp => hρ p (by simp [hp])
theorem Imp.cons {p : Nat × Bool} {t : T} {L : List (Nat × Bool)} (hi : Imp L t) : Imp (p :: L) t :=
  fun ρ hρ => hi ρ fun q hq => hρ q (by simp [hq])

theorem zero_leaf {nd : Nat → Node} {t : T} (h : Rep nd 0 t) : t = .leaf false := h.fun .ff

/-! ### `satOne` -/

theorem satOneRec_spec {P : Par} (hg : ∀ s, s < P.grow s) : ∀ {f : Nat} {k : K} {r m : Nat} {t : T}, Inv P k → Rep k.nd r t →
    Ord k.n m t → t ≠ .leaf false → Prot k r → m ≤ k.n → k.n - m < f → k.stack.length + (k.n - m) < 2 * k.n + 4 →
    ∃ x k' L, satOneRec P f k r = some (x, k') ∧ Built P k k' x m L (k.n - m) ∧ Imp L t ∧ ∀ p ∈ L, p.1 ∈ t.levels
  | 0, _, _, _, _, _, _, _, _, _, _, hf, _ => by omega
  | f + 1, k, r, m, t, hi, hr, ho, hne, hp, hm, hf, hs => by
    unfold satOneRec
    cases hr with
    | ff => exact absurd rfl hne
    | tt =>
      rw [if_pos (by omega)]
      exact ⟨1, k, [], rfl, ⟨hi, .refl k, .tt, hp, trivial, by omega⟩, fun _ _ => rfl, by simp⟩
    | @node _ lo tl th h1 h2 h3 h4 =>
      obtain ⟨o1, o2, o3, o4, o5⟩ := ho
      rw [if_neg (by omega), h2, Option.bind_some]
      have hlvl : ∀ {k'}, Grow k k' → (k'.nd r).lvl = (k.nd r).lvl := fun g => (core_iff.1 (g.core r hp)).1
      by_cases hz : lo = 0
      · rw [if_pos hz]
        subst hz
        have := zero_leaf h3
        subst this
        obtain ⟨x, k', L, a1, a2, a3, a4⟩ := satOneRec_spec hg (f := f) hi h4 o5 (fun e => o3 (e ▸ rfl)) (hp.high h1 h2)
          (by omega) (by omega) (by omega)
        obtain ⟨⟨y, k2, b1, b2⟩, -⟩ := mkPush_spec hg a2 (lvl := (k.nd r).lvl) (by omega) o2 (by omega)
        refine ⟨y, k2, _, by rw [a1, Option.bind_some, hlvl a2.grow]; exact b1,
          ⟨b2.inv, b2.grow, b2.rep, b2.prot, b2.inc.mono o1, by have := b2.len; omega⟩, a3.high, fun p hp' => ?_⟩
        rcases List.mem_cons.1 hp' with rfl | hp'
        · simp [T.levels]
        · simp [T.levels, a4 p hp']
      · rw [if_neg hz]
        obtain ⟨x, k', L, a1, a2, a3, a4⟩ := satOneRec_spec hg (f := f) hi h3 o4 (fun e => hz (by subst e; exact h3.leaf_idx)) (hp.low h1 h2)
          (by omega) (by omega) (by omega)
        obtain ⟨-, y, k2, b1, b2⟩ := mkPush_spec hg a2 (lvl := (k.nd r).lvl) (by omega) o2 (by omega)
        refine ⟨y, k2, _, by rw [a1, Option.bind_some, hlvl a2.grow]; exact b1,
          ⟨b2.inv, b2.grow, b2.rep, b2.prot, b2.inc.mono o1, by have := b2.len; omega⟩, a3.low, fun p hp' => ?_⟩
        rcases List.mem_cons.1 hp' with rfl | hp'
        · simp [T.levels]
        · simp [T.levels, a4 p hp']

/-! ### `satOneSet` -/

/-- a BDD of positive literals: a term, or the constant false for no literals -/
def VarsOf (C : List Nat) (tc : T) : Prop := tc = chain (C.map fun l => (l, true)) ∨ (C = [] ∧ tc = .leaf false)

theorem satOneSetRec_spec {P : Par} (hg : ∀ s, s < P.grow s) (pol : Bool) : ∀ {f : Nat} {k : K} {r c m : Nat} {t tc : T} {C : List Nat},
    Inv P k → Lv k → Rep k.nd r t → Rep k.nd c tc → VarsOf C tc → Inc k.n m (C.map fun l => (l, true)) →
    Ord k.n m t → t ≠ .leaf false → Prot k r → Prot k c → m ≤ k.n → k.n - m < f → k.stack.length + (k.n - m) < 2 * k.n + 4 →
    ∃ x k' L, satOneSetRec P pol f k r c = some (x, k') ∧ Built P k k' x m L (k.n - m) ∧ Imp L t ∧ (∀ l ∈ C, l ∈ L.map (·.1)) ∧
      ∀ p ∈ L, p.1 ∈ t.levels ∨ p.1 ∈ C ∧ p.2 = pol
  | 0, _, _, _, _, _, _, _, _, _, _, _, _, _, _, _, _, _, _, hf, _ => by omega
  | f + 1, k, r, c, m, t, tc, C, hi, hv, hr, hc, hC, hCi, ho, hne, hp, hpc, hm, hf, hs => by
    unfold satOneSetRec
    have hlr := hr.lvl hv
    have hlc := hc.lvl hv
    have keepr : ∀ {k'}, Grow k k' → (k'.nd r).lvl = (k.nd r).lvl := fun g => (core_iff.1 (g.core r hp)).1
    have keepc : ∀ {k'}, Grow k k' → (k'.nd c).lvl = (k.nd c).lvl := fun g => (core_iff.1 (g.core c hpc)).1
    -- the step at the node `r`, with the remaining variables
    have step : ∀ (c' : Nat) (tc' : T) (C' : List Nat), 2 ≤ r → Rep k.nd c' tc' → VarsOf C' tc' →
        Inc k.n ((k.nd r).lvl + 1) (C'.map fun l => (l, true)) → Prot k c' → (∀ l ∈ C, l ∈ C' ∨ l = (k.nd r).lvl) → (∀ l ∈ C', l ∈ C) →
        ∃ x k' L, ((k.nd r).low.bind fun lo =>
          if lo = 0 then (satOneSetRec P pol f k (k.nd r).high c').bind fun x => mkPush P x.2 (x.2.nd r).lvl 0 x.1
          else (satOneSetRec P pol f k lo c').bind fun x => mkPush P x.2 (x.2.nd r).lvl x.1 0) = some (x, k') ∧
          Built P k k' x m L (k.n - m) ∧ Imp L t ∧ (∀ l ∈ C, l ∈ L.map (·.1)) ∧ ∀ p ∈ L, p.1 ∈ t.levels ∨ p.1 ∈ C ∧ p.2 = pol := by
      intro c' tc' C' hr2 hc' hC' hCi' hpc' hsub hsub'
      cases hr with
      | ff => omega
      | tt => omega
      | @node _ lo tl th h1 h2 h3 h4 =>
        obtain ⟨o1, o2, o3, o4, o5⟩ := ho
        rw [h2, Option.bind_some]
        have fin : ∀ {b : Bool} {tb : T} {L : List (Nat × Bool)}, (∀ l ∈ C', l ∈ L.map (·.1)) → (∀ p ∈ L, p.1 ∈ tb.levels ∨ p.1 ∈ C' ∧ p.2 = pol) →
            (∀ l ∈ tb.levels, l ∈ tl.levels ++ th.levels) →
            (∀ l ∈ C, l ∈ (((k.nd r).lvl, b) :: L).map (·.1)) ∧
            ∀ p ∈ (((k.nd r).lvl, b) :: L), p.1 ∈ (T.node (k.nd r).lvl tl th).levels ∨ p.1 ∈ C ∧ p.2 = pol := by
          intro b tb L q1 q2 q3
          constructor
          · intro l hl
            rcases hsub l hl with h | h
            · exact List.mem_cons_of_mem _ (q1 l h)
            · subst h; simp
          · intro p hp'
            rcases List.mem_cons.1 hp' with rfl | hp'
            · simp [T.levels]
            · rcases q2 p hp' with h | ⟨h, e⟩
              · exact .inl (List.mem_cons_of_mem _ (q3 _ h))
              · exact .inr ⟨hsub' _ h, e⟩
        by_cases hz : lo = 0
        · rw [if_pos hz]
          subst hz
          have := zero_leaf h3
          subst this
          obtain ⟨x, k', L, a1, a2, a3, a4, a5⟩ := satOneSetRec_spec hg pol (f := f) hi hv h4 hc' hC' hCi' o5 (fun e => o3 (e ▸ rfl))
            (hp.high h1 h2) hpc' (by omega) (by omega) (by omega)
          obtain ⟨⟨y, k2, b1, b2⟩, -⟩ := mkPush_spec hg a2 (lvl := (k.nd r).lvl) (by omega) o2 (by omega)
          obtain ⟨f1, f2⟩ := fin (b := true) a4 a5 (fun l hl => by simp [hl])
          exact ⟨y, k2, _, by rw [a1, Option.bind_some, keepr a2.grow]; exact b1,
            ⟨b2.inv, b2.grow, b2.rep, b2.prot, b2.inc.mono o1, by have := b2.len; omega⟩, a3.high, f1, f2⟩
        · rw [if_neg hz]
          obtain ⟨x, k', L, a1, a2, a3, a4, a5⟩ := satOneSetRec_spec hg pol (f := f) hi hv h3 hc' hC' hCi' o4
            (fun e => hz (by subst e; exact h3.leaf_idx)) (hp.low h1 h2) hpc' (by omega) (by omega) (by omega)
          obtain ⟨-, y, k2, b1, b2⟩ := mkPush_spec hg a2 (lvl := (k.nd r).lvl) (by omega) o2 (by omega)
          obtain ⟨f1, f2⟩ := fin (b := false) a4 a5 (fun l hl => by simp [hl])
          exact ⟨y, k2, _, by rw [a1, Option.bind_some, keepr a2.grow]; exact b1,
            ⟨b2.inv, b2.grow, b2.rep, b2.prot, b2.inc.mono o1, by have := b2.len; omega⟩, a3.low, f1, f2⟩
    have hr2 : (k.nd r).lvl < k.n → 2 ≤ r := fun h => by
      by_contra hc
      rcases (by omega : r = 0 ∨ r = 1) with rfl | rfl
      · have := hv.1; omega
      · have := hv.2; omega
    cases C with
    | nil =>
      have hc2 : c < 2 := by
        rcases hC with e | ⟨-, e⟩
        · subst e
          have := hc.leaf_idx (b := true)
          simp at this; omega
        · subst e
          have := hc.leaf_idx
          simp at this; omega
      have hcl : (k.nd c).lvl = k.n := by
        rcases (by omega : c = 0 ∨ c = 1) with rfl | rfl
        · exact hv.1
        · exact hv.2
      by_cases hr2' : r < 2
      · rw [if_pos ⟨hr2', hc2⟩]
        have : t = .leaf true := by
          rw [hr.lt2 hr2'] at hne ⊢
          rcases (by omega : r = 0 ∨ r = 1) with rfl | rfl
          · exact absurd rfl hne
          · rfl
        subst this
        have : r = 1 := by have := hr.leaf_idx; simpa using this
        subst this
        exact ⟨1, k, [], rfl, ⟨hi, .refl k, .tt, hp, trivial, by omega⟩, fun _ _ => rfl, by simp, by simp⟩
      · rw [if_neg (by omega)]
        have hlt : (k.nd r).lvl < k.n := by
          cases hr with
          | ff => omega
          | tt => omega
          | node => exact ho.2.1
        rw [if_pos (by omega)]
        exact step c tc [] (by omega) hc hC trivial hpc (by simp) (by simp)
    | cons l C =>
      have htc : tc = .node l (.leaf false) (chain (C.map fun l => (l, true))) := by
        rcases hC with e | ⟨e, -⟩
        · exact e
        · cases e
      subst htc
      obtain ⟨i1, i2, i3⟩ := hCi
      simp only at i1 i2 i3
      have hcl : (k.nd c).lvl = l := hlc
      have hc2 : 2 ≤ c := by
        by_contra h
        rcases (by omega : c = 0 ∨ c = 1) with rfl | rfl
        · have := hv.1; omega
        · have := hv.2; omega
      obtain ⟨clo, cl1, cl2⟩ : ∃ lo, (k.nd c).low = some lo ∧ Rep k.nd (k.nd c).high (chain (C.map fun l => (l, true))) := by
        generalize htt : T.node l (.leaf false) (chain (C.map fun l => (l, true))) = tt at hc
        cases hc with
        | ff => cases htt
        | tt => cases htt
        | node g1 g2 g3 g4 => cases htt; exact ⟨_, g2, g4⟩
      rw [if_neg (by omega)]
      rcases Nat.lt_trichotomy (k.nd r).lvl l with hlt | heq | hgt
      · rw [if_pos (by omega)]
        exact step c _ (l :: C) (hr2 (by omega)) hc (.inl rfl) ⟨by show _ ≤ l; omega, i2, i3⟩ hpc (fun _ h => .inl h) (fun _ h => h)
      · rw [if_neg (by omega), if_neg (by omega)]
        exact step (k.nd c).high _ C (hr2 (by omega)) cl2 (.inl rfl) (by rw [heq]; exact i3) (hpc.high hc2 cl1)
          (fun x hx => by rcases List.mem_cons.1 hx with rfl | hx
                          · exact .inr heq.symm
                          · exact .inl hx) (fun x hx => by simp [hx])
      · rw [if_neg (by omega), if_pos (by omega)]
        have hot : Ord k.n (l + 1) t := by
          cases t with
          | leaf => trivial
          | node v a b =>
            have : (k.nd r).lvl = v := hlr
            exact ⟨by omega, ho.2⟩
        obtain ⟨x, k', L, a1, a2, a3, a4, a5⟩ := satOneSetRec_spec hg pol (f := f) hi hv hr cl2 (.inl rfl) i3 hot hne hp
          (hpc.high hc2 cl1) (by omega) (by omega) (by omega)
        obtain ⟨⟨y, k2, b1, b2⟩, y', k2', c1, c2⟩ := mkPush_spec hg a2 (lvl := l) (by omega) i2 (by omega)
        have fin : ∀ b : Bool, b = pol → (∀ z ∈ l :: C, z ∈ ((l, b) :: L).map (·.1)) ∧
            ∀ p ∈ (l, b) :: L, p.1 ∈ t.levels ∨ p.1 ∈ l :: C ∧ p.2 = pol := by
          intro b hb
          constructor
          · intro z hz
            rcases List.mem_cons.1 hz with rfl | hz
            · simp
            · exact List.mem_cons_of_mem _ (a4 z hz)
          · intro p hp'
            rcases List.mem_cons.1 hp' with rfl | hp'
            · exact .inr ⟨by simp, hb⟩
            · exact (a5 p hp').imp id fun h => ⟨by simp [h.1], h.2⟩
        rw [a1, Option.bind_some]
        simp only [keepc a2.grow, hcl]
        cases pol with
        | true =>
          obtain ⟨f1, f2⟩ := fin true rfl
          exact ⟨y, k2, _, b1, ⟨b2.inv, b2.grow, b2.rep, b2.prot, b2.inc.mono i1, by have := b2.len; omega⟩, a3.cons, f1, f2⟩
        | false =>
          obtain ⟨f1, f2⟩ := fin false rfl
          exact ⟨y', k2', _, c1, ⟨c2.inv, c2.grow, c2.rep, c2.prot, c2.inc.mono i1, by have := c2.len; omega⟩, a3.cons, f1, f2⟩

/-! ### `fullSatOne` -/

theorem fill_spec {P : Par} {k : K} (hg : ∀ s, s < P.grow s) {t : T} : ∀ (d : Nat) {k1 : K} {x a : Nat} {L : List (Nat × Bool)},
    Built P k k1 x (a + d) L (k.n - (a + d)) → L.map (·.1) = List.range' (a + d) (k.n - (a + d)) → Imp L t →
    (∀ p ∈ L, p.1 ∈ t.levels ∨ p.2 = false) → a + d ≤ k.n →
    k.stack.length + (k.n - a) < 2 * k.n + 4 →
    ∃ y k2 L', fill P (List.range' a d).reverse k1 x = some (y, k2) ∧ Built P k k2 y a L' (k.n - a) ∧
      L'.map (·.1) = List.range' a (k.n - a) ∧ Imp L' t ∧ ∀ p ∈ L', p.1 ∈ t.levels ∨ p.2 = false
  | 0, k1, x, a, L, h, hL, hi, hq, _, _ => ⟨x, k1, L, rfl, h, hL, hi, hq⟩
  | d + 1, k1, x, a, L, h, hL, hi, hq, hn, hs => by
    obtain ⟨-, y, k2, b1, b2⟩ := mkPush_spec hg h (lvl := a + d) (by omega) (by omega) (by omega)
    have hc : k.n - (a + (d + 1)) + 1 = k.n - (a + d) := by omega
    rw [hc] at b2
    obtain ⟨z, k3, L', c1, c2, c3, c4, c5⟩ := fill_spec hg d b2 (by
      rw [List.map_cons, hL, ← hc, List.range'_succ]; rfl) hi.cons (fun p hp => by
        rcases List.mem_cons.1 hp with rfl | hp
        · exact .inr rfl
        · exact hq p hp) (by omega) hs
    refine ⟨z, k3, L', ?_, c2, c3, c4, c5⟩
    rw [List.range'_1_concat, List.reverse_append]
    show (mkPush P k1 (a + d) x 0).bind _ = _
    rw [b1]; exact c1

theorem fullSatOneRec_spec {P : Par} (hg : ∀ s, s < P.grow s) : ∀ {f : Nat} {k : K} {r m : Nat} {t : T}, Inv P k → Lv k →
    Rep k.nd r t → Ord k.n m t → t ≠ .leaf false → Prot k r → m ≤ k.n → k.n - m < f → k.stack.length + k.n < 2 * k.n + 4 →
    ∃ x k' L, fullSatOneRec P f k r = some (x, k') ∧ Built P k k' x (t.top k.n) L (k.n - t.top k.n) ∧
      L.map (·.1) = List.range' (t.top k.n) (k.n - t.top k.n) ∧ Imp L t ∧ ∀ p ∈ L, p.1 ∈ t.levels ∨ p.2 = false
  | 0, _, _, _, _, _, _, _, _, _, _, _, hf, _ => by omega
  | f + 1, k, r, m, t, hi, hv, hr, ho, hne, hp, hm, hf, hs => by
    unfold fullSatOneRec
    cases hr with
    | ff => exact absurd rfl hne
    | tt =>
      rw [if_pos (by omega)]
      exact ⟨1, k, [], rfl, ⟨hi, .refl k, .tt, hp, trivial, by omega⟩, by simp [T.top], fun _ _ => rfl, by simp⟩
    | @node _ lo tl th h1 h2 h3 h4 =>
      obtain ⟨o1, o2, o3, o4, o5⟩ := ho
      rw [if_neg (by omega), h2, Option.bind_some]
      have hlvl : ∀ {k'}, Grow k k' → (k'.nd r).lvl = (k.nd r).lvl := fun g => (core_iff.1 (g.core r hp)).1
      have hhigh : ∀ {k'}, Grow k k' → (k'.nd r).high = (k.nd r).high := fun g => (core_iff.1 (g.core r hp)).2.2
      show ∃ x k' L, _ ∧ Built P k k' x (k.nd r).lvl L (k.n - (k.nd r).lvl) ∧ L.map (·.1) = List.range' (k.nd r).lvl (k.n - (k.nd r).lvl) ∧ _
      -- fill up below the node, then the node
      have step : ∀ {c x : Nat} {k1 : K} {tc : T} {L : List (Nat × Bool)}, Rep k.nd c tc → Prot k c → Ord k.n ((k.nd r).lvl + 1) tc →
          Built P k k1 x (tc.top k.n) L (k.n - tc.top k.n) → L.map (·.1) = List.range' (tc.top k.n) (k.n - tc.top k.n) → Imp L tc →
          (∀ p ∈ L, p.1 ∈ tc.levels ∨ p.2 = false) →
          ∃ y k2 L', fill P (List.range' ((k1.nd r).lvl + 1) ((k1.nd c).lvl - (k1.nd r).lvl - 1)).reverse k1 x = some (y, k2) ∧
            Built P k k2 y ((k.nd r).lvl + 1) L' (k.n - ((k.nd r).lvl + 1)) ∧
            L'.map (·.1) = List.range' ((k.nd r).lvl + 1) (k.n - ((k.nd r).lvl + 1)) ∧ Imp L' tc ∧
            ∀ p ∈ L', p.1 ∈ tc.levels ∨ p.2 = false := by
        intro c x k1 tc L hc hpc hoc hb hL hI hq
        have hcl : (k1.nd c).lvl = tc.top k.n := by
          rw [(core_iff.1 (hb.grow.core c hpc)).1]; exact hc.lvl hv
        have htop := hoc.top (by omega)
        have htn : tc.top k.n ≤ k.n := by
          cases tc with
          | leaf => exact Nat.le_refl _
          | node v a b => exact Nat.le_of_lt hoc.2.1
        obtain ⟨d, hd⟩ := Nat.exists_eq_add_of_le htop
        rw [hlvl hb.grow, hcl, hd, show (k.nd r).lvl + 1 + d - (k.nd r).lvl - 1 = d by omega]
        rw [hd] at hb hL htn
        exact fill_spec hg d hb hL hI hq htn (by omega)
      have hcons : ∀ {b : Bool} {L : List (Nat × Bool)}, L.map (·.1) = List.range' ((k.nd r).lvl + 1) (k.n - ((k.nd r).lvl + 1)) →
          ((((k.nd r).lvl, b) :: L).map (·.1)) = List.range' (k.nd r).lvl (k.n - (k.nd r).lvl) := by
        intro b L hL
        rw [List.map_cons, hL, show k.n - (k.nd r).lvl = (k.n - ((k.nd r).lvl + 1)) + 1 by omega, List.range'_succ]
      by_cases hz : lo = 0
      · rw [if_neg (by simpa using hz)]
        subst hz
        have := zero_leaf h3
        subst this
        obtain ⟨x, k1, L, a1, a2, a3, a4, a5⟩ := fullSatOneRec_spec hg (f := f) hi hv h4 o5 (fun e => o3 (e ▸ rfl)) (hp.high h1 h2)
          (by omega) (by omega) hs
        obtain ⟨y, k2, L', b1, b2, b3, b4, b5⟩ := step h4 (hp.high h1 h2) o5 a2 a3 a4 a5
        obtain ⟨⟨z, k3, c1, c2⟩, -⟩ := mkPush_spec hg b2 (lvl := (k.nd r).lvl) (by omega) o2 (by omega)
        refine ⟨z, k3, _, ?_, ⟨c2.inv, c2.grow, c2.rep, c2.prot, c2.inc, by have := c2.len; omega⟩, hcons b3, b4.high, fun p hp' => by
          rcases List.mem_cons.1 hp' with rfl | hp'
          · exact .inl (by simp [T.levels])
          · exact (b5 p hp').imp (fun h => by simp [T.levels, h]) id⟩
        rw [a1, Option.bind_some]
        show (fill P (List.range' ((k1.nd r).lvl + 1) ((k1.nd (k1.nd r).high).lvl - (k1.nd r).lvl - 1)).reverse k1 x).bind _ = _
        rw [hhigh a2.grow, b1, Option.bind_some, hlvl b2.grow]
        exact c1
      · rw [if_pos hz]
        obtain ⟨x, k1, L, a1, a2, a3, a4, a5⟩ := fullSatOneRec_spec hg (f := f) hi hv h3 o4 (fun e => hz (by subst e; exact h3.leaf_idx))
          (hp.low h1 h2) (by omega) (by omega) hs
        obtain ⟨y, k2, L', b1, b2, b3, b4, b5⟩ := step h3 (hp.low h1 h2) o4 a2 a3 a4 a5
        obtain ⟨-, z, k3, c1, c2⟩ := mkPush_spec hg b2 (lvl := (k.nd r).lvl) (by omega) o2 (by omega)
        refine ⟨z, k3, _, ?_, ⟨c2.inv, c2.grow, c2.rep, c2.prot, c2.inc, by have := c2.len; omega⟩, hcons b3, b4.low, fun p hp' => by
          rcases List.mem_cons.1 hp' with rfl | hp'
          · exact .inl (by simp [T.levels])
          · exact (b5 p hp').imp (fun h => by simp [T.levels, h]) id⟩
        rw [a1, Option.bind_some]
        show (fill P (List.range' ((k1.nd r).lvl + 1) ((k1.nd lo).lvl - (k1.nd r).lvl - 1)).reverse k1 x).bind _ = _
        rw [b1, Option.bind_some, hlvl b2.grow]
        exact c1

/-! ### The literals of a term -/

theorem reach_leaf {nd : Nat → Node} {x j : Nat} (hx : x < 2) (h : Reach nd (· = x) j) : j = x := by
  induction h with
  | root h => exact h
  | low _ h2 _ ih => omega
  | high _ h2 _ ih => omega

theorem reach_node {nd : Nat → Node} {x lo j : Nat} (hx : 2 ≤ x) (hl : (nd x).low = some lo) :
    Reach nd (· = x) j ↔ j = x ∨ Reach nd (· = lo) j ∨ Reach nd (· = (nd x).high) j := by
  constructor
  · intro h
    induction h with
    | root h => exact .inl h
    | low h1 h2 h3 ih =>
      rcases ih with rfl | ih | ih
      · rw [hl] at h3; cases h3; exact .inr (.inl (.root rfl))
      · exact .inr (.inl (.low ih h2 h3))
      · exact .inr (.inr (.low ih h2 h3))
    | high h1 h2 h3 ih =>
      rcases ih with rfl | ih | ih
      · exact .inr (.inr (.root rfl))
      · exact .inr (.inl (.high ih h2 h3))
      · exact .inr (.inr (.high ih h2 h3))
  · have tr : ∀ {y}, Reach nd (· = x) y → ∀ {z}, Reach nd (· = y) z → Reach nd (· = x) z := by
      intro y hy z hz
      induction hz with
      | root e => subst e; exact hy
      | low _ a b ih => exact .low ih a b
      | high _ a b ih => exact .high ih a b
    rintro (rfl | h | h)
    · exact .root rfl
    · exact tr (.low (.root rfl) hx hl) h
    · exact tr (.high (.root rfl) hx hl) h

/-- the literal of a level -/
def levLit (o : KO) (names : List α) (p : Nat × Bool) : Lit (Option α) := ⟨names[o.l2v p.1]?, p.2⟩

theorem chain_nodes {o : KO} (names : List α) : ∀ {L : List (Nat × Bool)} {x : Nat}, Rep o.k.nd x (chain L) →
    ∃ js : List Nat, (∀ j, j ∈ js ↔ 2 ≤ j ∧ Reach o.k.nd (· = x) j) ∧ (js.map fun j => (o.k.nd j).lvl) = L.map (·.1) ∧
      js.map (nodeLit o names) = L.map fun p => some (levLit o names p)
  | [], x, h => by
    have : x = 1 := by simpa using h.leaf_idx (b := true)
    subst this
    refine ⟨[], fun j => ⟨by simp, fun ⟨h2, hj⟩ => ?_⟩, rfl, rfl⟩
    have := reach_leaf (by omega) hj
    omega
  | (l, b) :: L, x, h => by
    -- the node and the rest of the term
    have key : ∃ lo y, 2 ≤ x ∧ (o.k.nd x).low = some lo ∧ (o.k.nd x).lvl = l ∧ Rep o.k.nd y (chain L) ∧
        ((b = true ∧ lo = 0 ∧ (o.k.nd x).high = y) ∨ (b = false ∧ lo = y ∧ (o.k.nd x).high = 0)) := by
      generalize ht : chain ((l, b) :: L) = t at h
      cases b with
      | true =>
        cases h with
        | ff => cases ht
        | tt => cases ht
        | node h1 h2 h3 h4 =>
          simp only [chain, T.node.injEq] at ht
          obtain ⟨e1, e2, e3⟩ := ht
          subst e2 e3
          exact ⟨_, _, h1, h2, e1.symm, h4, .inl ⟨rfl, h3.leaf_idx, rfl⟩⟩
      | false =>
        cases h with
        | ff => cases ht
        | tt => cases ht
        | node h1 h2 h3 h4 =>
          simp only [chain, T.node.injEq] at ht
          obtain ⟨e1, e2, e3⟩ := ht
          subst e2 e3
          exact ⟨_, _, h1, h2, e1.symm, h3, .inr ⟨rfl, rfl, h4.leaf_idx⟩⟩
    obtain ⟨lo, y, k1, k2, k3, k4, k5⟩ := key
    obtain ⟨js, j1, j2, j3⟩ := chain_nodes names k4
    refine ⟨x :: js, fun j => ?_, by rw [List.map_cons, List.map_cons, j2, k3], ?_⟩
    · have h0 : ∀ {j}, 2 ≤ j → ¬ Reach o.k.nd (· = 0) j := fun h2 hr => by
        have := reach_leaf (by omega) hr
        omega
      rw [List.mem_cons, j1, reach_node k1 k2]
      constructor
      · rintro (rfl | ⟨h2, hr⟩)
        · exact ⟨k1, .inl rfl⟩
        · refine ⟨h2, .inr ?_⟩
          rcases k5 with ⟨-, -, e⟩ | ⟨-, e, -⟩
          · rw [e]; exact .inr hr
          · rw [e]; exact .inl hr
      · rintro ⟨h2, e | hr | hr⟩
        · exact .inl e
        · rcases k5 with ⟨-, e, -⟩ | ⟨-, e, -⟩
          · rw [e] at hr; exact absurd hr (h0 h2)
          · rw [e] at hr; exact .inr ⟨h2, hr⟩
        · rcases k5 with ⟨-, -, e⟩ | ⟨-, -, e⟩
          · rw [e] at hr; exact .inr ⟨h2, hr⟩
          · rw [e] at hr; exact absurd hr (h0 h2)
    · rw [List.map_cons, List.map_cons, j3]
      congr 1
      unfold nodeLit levLit
      rw [k2, k3]
      rcases k5 with ⟨rfl, rfl, -⟩ | ⟨rfl, rfl, e⟩
      · rw [if_pos rfl]
      · have : lo ≠ 0 := by
          rintro rfl
          exact chain_ne L (zero_leaf k4)
        rw [if_neg (by simpa using this), if_pos e]

theorem mapM_some {β γ : Type} {f : β → Option γ} (d : γ) : ∀ {l : List β}, (∀ x ∈ l, ∃ y, f x = some y) →
    l.mapM f = some (l.map fun x => (f x).getD d)
  | [], _ => rfl
  | x :: l, h => by
    obtain ⟨y, hy⟩ := h x (by simp)
    rw [List.mapM_cons, hy, mapM_some d (l := l) fun z hz => h z (by simp [hz])]
    simp [hy]

/-- the model that is read from the BDD of a term has the literals of the term -/
theorem createModel_spec {P : Par} {o : KO} (hi : Inv P o.k) (names : List α) {L : List (Nat × Bool)} {x : Nat}
    (h : Rep o.k.nd x (chain L)) (hL : Inc o.k.n 0 L) :
    ∃ m, createModel o names x = some (some m) ∧ m.Perm (L.map (levLit o names)) := by
  obtain ⟨js, j1, j2, j3⟩ := chain_nodes names h
  have hx0 : x ≠ 0 := by
    rintro rfl
    exact chain_ne L (zero_leaf h)
  unfold createModel
  rw [if_neg hx0]
  cases L with
  | nil =>
    have : x = 1 := by simpa using h.leaf_idx (b := true)
    rw [if_pos this]
    exact ⟨[], rfl, .refl _⟩
  | cons p L =>
    have hx2 : ¬ x < 2 := fun hx => by
      have := h.lt2 hx
      obtain ⟨l, b⟩ := p
      cases b <;> cases this
    rw [if_neg (by omega)]
    have hp : (allNodes o.k x).Perm js := by
      unfold allNodes
      rw [if_neg hx2]
      refine (List.perm_ext_iff_of_nodup (List.nodup_range.filter _) ?_).2 fun j => ?_
      · refine List.Nodup.of_map (fun j => (o.k.nd j).lvl) ?_
        rw [j2]; exact hL.nodup
      · rw [List.mem_filter, hi.mark_iff h, j1, List.mem_range]
        refine ⟨fun h => h.2, fun hj => ⟨?_, hj⟩⟩
        obtain ⟨h2, hj⟩ := hj
        have key : 2 ≤ j → (o.k.nd j).low ≠ none := by
          have : ∀ {y s j}, Rep o.k.nd y s → Reach o.k.nd (· = y) j → ∃ s', Rep o.k.nd j s' := by
            intro y s j hs hr
            induction hr with
            | root e => subst e; exact ⟨_, hs⟩
            | low _ a b ih =>
              obtain ⟨s', ih⟩ := ih
              cases ih with
              | ff => omega
              | tt => omega
              | node _ h2 h3 h4 => rw [b] at h2; cases h2; exact ⟨_, h3⟩
            | high _ a b ih =>
              obtain ⟨s', ih⟩ := ih
              cases ih with
              | ff => omega
              | tt => omega
              | node _ h2 h3 h4 => exact ⟨_, h4⟩
          obtain ⟨s', hs'⟩ := this h hj
          exact fun h2 => hs'.live h2
        exact (hi.live j h2 (key h2)).1
    have hsome : ∀ j ∈ allNodes o.k x, ∃ y, nodeLit o names j = some y := fun j hj => by
      have : nodeLit o names j ∈ js.map (nodeLit o names) := List.mem_map_of_mem (hp.mem_iff.1 hj)
      rw [j3] at this
      obtain ⟨q, -, e⟩ := List.mem_map.1 this
      exact ⟨_, e.symm⟩
    refine ⟨_, by rw [mapM_some ⟨none, true⟩ hsome]; rfl, (hp.map _).trans (.of_eq ?_)⟩
    have : js.map (fun j => (nodeLit o names j).getD ⟨none, true⟩) = (js.map (nodeLit o names)).map fun y => y.getD ⟨none, true⟩ := by
      rw [List.map_map]; rfl
    rw [this, j3, List.map_map]
    rfl

/-! ### `support` -/

theorem supportRec_spec {nd : Nat → Node} : ∀ (f : Nat) (s : (Nat → Bool) × (Nat → Bool) × Nat) (i : Nat),
    (supportRec nd f s i).1 = mark nd f s.1 i ∧
    ∃ L : List Nat, (∀ j, mark nd f s.1 i j = true ↔ s.1 j = true ∨ j ∈ L) ∧
      (∀ x, (supportRec nd f s i).2.1 x = true ↔ s.2.1 x = true ∨ ∃ j ∈ L, (nd j).lvl = x) ∧
      s.2.2 ≤ (supportRec nd f s i).2.2 ∧ ∀ j ∈ L, (nd j).lvl ≤ (supportRec nd f s i).2.2
  | 0, s, i => ⟨rfl, [], by simp [mark], by simp [supportRec], Nat.le_refl _, by simp⟩
  | f + 1, s, i => by
    unfold supportRec mark
    by_cases h2 : i < 2
    · rw [if_pos h2, if_pos h2]
      exact ⟨rfl, [], by simp, by simp, Nat.le_refl _, by simp⟩
    rw [if_neg h2, if_neg h2]
    by_cases hm : s.1 i = true
    · rw [if_pos hm, if_pos hm]
      exact ⟨rfl, [], by simp, by simp, Nat.le_refl _, by simp⟩
    rw [if_neg hm, if_neg hm]
    cases hl : (nd i).low with
    | none => exact ⟨rfl, [], by simp, by simp, Nat.le_refl _, by simp⟩
    | some lo =>
      simp only
      generalize hs0 : (upd s.1 i true, upd s.2.1 (nd i).lvl true, if s.2.2 < (nd i).lvl then (nd i).lvl else s.2.2) = s0
      have e1 : s0.1 = upd s.1 i true := by rw [← hs0]
      have e2 : s0.2.1 = upd s.2.1 (nd i).lvl true := by rw [← hs0]
      have e3 : s.2.2 ≤ s0.2.2 ∧ (nd i).lvl ≤ s0.2.2 := by
        rw [← hs0]; simp only; split <;> omega
      obtain ⟨a1, A, a2, a3, a4, a5⟩ := supportRec_spec f s0 lo
      obtain ⟨b1, B, b2, b3, b4, b5⟩ := supportRec_spec f (supportRec nd f s0 lo) (nd i).high
      rw [a1] at b1 b2
      rw [e1] at a2 b1 b2
      refine ⟨b1, i :: (A ++ B), fun j => ?_, fun x => ?_, by omega, fun j hj => ?_⟩
      · rw [b2, a2]
        simp only [List.mem_cons, List.mem_append]
        by_cases e : j = i
        · subst e; simp
        · rw [upd_ne _ _ e]; simp [e, or_assoc]
      · rw [b3, a3, e2]
        simp only [List.mem_cons, List.mem_append]
        by_cases e : x = (nd i).lvl
        · subst e
          simp only [upd_self, true_or, true_iff]
          exact .inr ⟨i, .inl rfl, rfl⟩
        · rw [upd_ne _ _ e]
          constructor
          · rintro ((h | ⟨j, h, h'⟩) | ⟨j, h, h'⟩)
            · exact .inl h
            · exact .inr ⟨j, .inr (.inl h), h'⟩
            · exact .inr ⟨j, .inr (.inr h), h'⟩
          · rintro (h | ⟨j, rfl | h | h, h'⟩)
            · exact .inl (.inl h)
            · exact absurd h'.symm e
            · exact .inl (.inr ⟨j, h, h'⟩)
            · exact .inr ⟨j, h, h'⟩
      · rcases List.mem_cons.1 hj with rfl | hj
        · omega
        · rcases List.mem_append.1 hj with hj | hj
          · have := a5 j hj; omega
          · exact b5 j hj

/-- the levels of a tree are the levels of the nodes -/
theorem rep_levels {nd : Nat → Node} : ∀ {t : T} {i : Nat}, Rep nd i t → ∀ l, l ∈ t.levels ↔ ∃ j, 2 ≤ j ∧ Reach nd (· = i) j ∧ (nd j).lvl = l
  | _, _, .ff, l => by
    refine ⟨by simp [T.levels], fun ⟨j, h2, hj, _⟩ => ?_⟩
    have := reach_leaf (by omega) hj
    omega
  | _, _, .tt, l => by
    refine ⟨by simp [T.levels], fun ⟨j, h2, hj, _⟩ => ?_⟩
    have := reach_leaf (by omega) hj
    omega
  | _, i, .node h1 h2 h3 h4, l => by
    have ih3 := rep_levels h3 l
    have ih4 := rep_levels h4 l
    simp only [T.levels, List.mem_cons, List.mem_append, ih3, ih4]
    constructor
    · rintro (rfl | ⟨j, a, b, c⟩ | ⟨j, a, b, c⟩)
      · exact ⟨i, h1, .root rfl, rfl⟩
      · exact ⟨j, a, (reach_node h1 h2).2 (.inr (.inl b)), c⟩
      · exact ⟨j, a, (reach_node h1 h2).2 (.inr (.inr b)), c⟩
    · rintro ⟨j, a, b, c⟩
      rcases (reach_node h1 h2).1 b with rfl | b | b
      · exact .inl c.symm
      · exact .inr (.inl ⟨j, a, b, c⟩)
      · exact .inr (.inr ⟨j, a, b, c⟩)

theorem supportLoop_spec {P : Par} {k : K} (hg : ∀ s, s < P.grow s) : ∀ {D : List Nat} {k1 : K} {x m : Nat} {L : List (Nat × Bool)},
    Inv P k1 → Grow k k1 → Rep k1.nd x (chain L) → Inc k.n m L → (∀ l ∈ D, l < m ∧ l < k.n) → D.Pairwise (fun a b => b < a) →
    ∃ y k2, supportLoop P D k1 x = some (y, k2) ∧ Inv P k2 ∧ Grow k k2 ∧ Rep k2.nd y (chain (D.reverse.map (fun l => (l, true)) ++ L)) ∧
      Inc k.n 0 (D.reverse.map (fun l => (l, true)) ++ L)
  | [], k1, x, m, L, hi, hk, hr, hL, _, _ => ⟨x, k1, rfl, hi, hk, hr, hL.mono (Nat.zero_le _)⟩
  | v :: D, k1, x, m, L, hi, hk, hr, hL, hD, hP => by
    obtain ⟨hvm, hvn⟩ := hD v (by simp)
    have hlive : 2 ≤ x → (k1.nd x).low ≠ none := fun h2 => hr.live h2
    obtain ⟨ka, a1, a2, a3, a4, a5⟩ : ∃ ka, addRef k1 x = some ka ∧ Inv P ka ∧ Grow k1 ka ∧ Rep ka.nd x (chain L) ∧ Prot ka x ∧
        (2 ≤ x → 0 < (ka.nd x).ref ∧ ((k1.nd x).ref < maxref → (ka.nd x).ref = (k1.nd x).ref + 1) ∧
          (¬ (k1.nd x).ref < maxref → (ka.nd x).ref = (k1.nd x).ref)) := by
      unfold addRef
      by_cases hx : x < 2
      · rw [if_pos hx]
        exact ⟨k1, rfl, hi, .refl _, hr, .inl hx, fun h => by omega⟩
      · rw [if_neg hx, if_neg (by have := (hi.live x (by omega) (hlive (by omega))).1; omega), if_neg (hlive (by omega))]
        generalize hR : (if (k1.nd x).ref < maxref then (k1.nd x).ref + 1 else (k1.nd x).ref) = R
        have hR0 : 0 < R := by
          have : 0 < maxref := by decide
          rw [← hR]; split <;> omega
        have href : ((setRef k1 x R).nd x).ref = R := by rw [setRef_ref, if_pos rfl]
        refine ⟨_, rfl, hi.setRef hlive, ⟨rfl, fun i h => ?_, fun i _ => setRef_core _ _ _ _, fun _ h => h⟩, setRef_rep.2 hr,
          .inr (.root (.inr (by rw [href]; exact hR0))), fun _ => ⟨by rw [href]; exact hR0, fun h => ?_, fun h => ?_⟩⟩
        · rw [setRef_ref]; split
          · exact hR0
          · exact h
        · rw [href, ← hR, if_pos h]
        · rw [href, ← hR, if_neg h]
    obtain ⟨a5, a6⟩ := a5
    have hkn : ka.n = k.n := a3.n.trans hk.n
    obtain ⟨y, kb, b1, b2, b3, b4⟩ := makeNode_node hg a2 (lvl := v) (.inl (by omega)) a5 .ff a4 (chain_ne L).symm (by rw [hkn]; exact hvn)
      trivial (by rw [hkn]; exact (hL.mono (by omega)).ord)
    have hlive2 : 2 ≤ x → (kb.nd x).low ≠ none := fun h2 => (b3.rep a5 a4).live h2
    obtain ⟨kc, c1, c2, c3, c4⟩ : ∃ kc, delRef kb x = some kc ∧ Inv P kc ∧ Grow k1 kc ∧ Rep kc.nd y (chain ((v, true) :: L)) := by
      have g1 : Grow k1 kb := a3.trans b3.grow
      unfold delRef
      by_cases hx : x < 2
      · rw [if_pos hx]
        exact ⟨kb, rfl, b2, g1, b4⟩
      · obtain ⟨r1, r2, r3⟩ := a6 (by omega)
        have hrb : (kb.nd x).ref = (ka.nd x).ref := b3.refs x
        rw [if_neg hx, if_neg (by have := (b2.live x (by omega) (hlive2 (by omega))).1; omega), if_neg (hlive2 (by omega)),
          if_neg (by omega)]
        refine ⟨_, rfl, b2.setRef hlive2, ⟨g1.n, fun i h => ?_, fun i h => ?_, g1.stack⟩, setRef_rep.2 b4⟩
        · rw [setRef_ref]
          split
          · next e =>
            subst e
            split
            · omega
            · by_cases hm : (k1.nd i).ref < maxref
              · have := r2 hm; omega
              · have := r3 hm
                have : 0 < maxref := by decide
                omega
          · exact g1.refs i h
        · rw [setRef_core]; exact g1.core i h
    obtain ⟨hP1, hP2⟩ := List.pairwise_cons.1 hP
    obtain ⟨z, k2, d1, d2, d3, d4, d5⟩ := supportLoop_spec hg (D := D) (m := v) c2 (hk.trans c3) c4
      ⟨Nat.le_refl _, hvn, hL.mono (by omega)⟩ (fun l hl => ⟨hP1 l hl, (hD l (by simp [hl])).2⟩) hP2
    refine ⟨z, k2, ?_, d2, d3, ?_, ?_⟩
    · unfold supportLoop
      rw [a1, Option.bind_some, b1, Option.bind_some, c1]
      exact d1
    · simpa using d4
    · simpa using d5

theorem support_spec {P : Par} (hg : ∀ s, s < P.grow s) {k : K} (hi : Inv P k) {r : Nat} {t : T} (hr : Rep k.nd r t) (h2 : 2 ≤ r) :
    ∃ (y : Nat) (k2 : K) (C : List Nat), support P k r = some (y, k2) ∧ Inv P k2 ∧ Grow k k2 ∧ Rep k2.nd y (chain (C.map fun l => (l, true))) ∧
      Inc k.n 0 (C.map fun l => (l, true)) ∧ ∀ l, l ∈ C ↔ l ∈ t.levels := by
  obtain ⟨-, L, a2, a3, a4, a5⟩ := supportRec_spec (nd := k.nd) (k.n + 1) (fun _ => false, fun _ => false, (k.nd r).lvl) r
  simp only at a2 a4
  generalize hs : supportRec k.nd (k.n + 1) (fun _ => false, fun _ => false, (k.nd r).lvl) r = s at a3 a4 a5
  have hlev : ∀ l, s.2.1 l = true ↔ l ∈ t.levels := fun l => by
    rw [a3, rep_levels hr]
    simp only [Bool.false_eq_true, false_or]
    constructor
    · rintro ⟨j, hj, e⟩
      obtain ⟨q1, q2⟩ := (hi.mark_iff hr j).1 ((a2 j).2 (.inr hj))
      exact ⟨j, q1, q2, e⟩
    · rintro ⟨j, q1, q2, e⟩
      exact ⟨j, ((a2 j).1 ((hi.mark_iff hr j).2 ⟨q1, q2⟩)).resolve_left (by simp), e⟩
  have hmax : ∀ l ∈ t.levels, (k.nd r).lvl ≤ l ∧ l ≤ s.2.2 := fun l hl => by
    refine ⟨?_, ?_⟩
    · cases hr with
      | ff => omega
      | tt => omega
      | node _ _ _ _ =>
        have := (hi.ord (.node ‹_› ‹_› ‹_› ‹_›)).of_top.levels l hl
        exact this.1
    · obtain ⟨j, hj, e⟩ := ((a3 l).1 ((hlev l).2 hl)).resolve_left (by simp)
      rw [← e]; exact a5 j hj
  have hmem : ∀ l, l ∈ ((List.range' (k.nd r).lvl (s.2.2 + 1 - (k.nd r).lvl)).reverse.filter fun l => s.2.1 l) ↔ l ∈ t.levels := fun l => by
    rw [List.mem_filter, List.mem_reverse, List.mem_range'_1, hlev]
    refine ⟨fun h => h.2, fun h => ⟨?_, h⟩⟩
    have := hmax l h
    omega
  generalize hDD : ((List.range' (k.nd r).lvl (s.2.2 + 1 - (k.nd r).lvl)).reverse.filter fun l => s.2.1 l) = D at hmem
  have hpw : D.Pairwise (fun a b => b < a) := by
    rw [← hDD]
    refine List.Pairwise.filter _ ?_
    rw [List.pairwise_reverse]
    exact List.pairwise_lt_range'
  obtain ⟨y, k2, b1, b2, b3, b4, b5⟩ := supportLoop_spec (k := k) hg (D := D) (k1 := k) (x := 1) (m := k.n) (L := []) hi (.refl _) .tt trivial
    (fun l hl => by
      have := ((hi.ord hr).levels l ((hmem l).1 hl)).2
      exact ⟨this, this⟩) hpw
  rw [List.append_nil] at b4 b5
  refine ⟨y, k2, D.reverse, ?_, b2, b3, b4, b5, fun l => by rw [List.mem_reverse, hmem]⟩
  unfold support
  rw [if_neg (by omega)]
  simp only [hs, hDD]
  exact b1

end Verif.Bdd
