import Verif.Bdd.Model
import Verif.Bdd.Tree
/-
Invariant of the node table and specification of `makeNode` with garbage collection and resizing.
-/
namespace Verif.Bdd

/-- the contents of a node without its reference count -/
def Node.core (x : Node) : Nat × Option Nat × Nat := (x.lvl, x.low, x.high)

theorem core_iff {x y : Node} : x.core = y.core ↔ x.lvl = y.lvl ∧ x.low = y.low ∧ x.high = y.high := by
  simp [Node.core]

/-- node `i` of the table is the root of tree `t` -/
inductive Rep (nd : Nat → Node) : Nat → T → Prop
  | ff : Rep nd 0 (.leaf false)
  | tt : Rep nd 1 (.leaf true)
  | node {i lo : Nat} {l h : T} : 2 ≤ i → (nd i).low = some lo → Rep nd lo l → Rep nd (nd i).high h →
      Rep nd i (.node (nd i).lvl l h)

theorem Rep.fun {nd : Nat → Node} {i : Nat} {s t : T} (hs : Rep nd i s) (ht : Rep nd i t) : s = t := by
  induction hs generalizing t with
  | ff => cases ht with
    | ff => rfl
    | node h _ _ _ => omega
  | tt => cases ht with
    | tt => rfl
    | node h _ _ _ => omega
  | node h1 h2 _ _ ih1 ih2 => cases ht with
    | ff => omega
    | tt => omega
    | node h3 h4 h5 h6 =>
      rw [h2] at h4
      cases h4
      rw [ih1 h5, ih2 h6]

theorem Rep.ge2 {nd : Nat → Node} {i : Nat} {t : T} (h : Rep nd i t) (hi : 2 ≤ i) :
    ∃ lo l h, (nd i).low = some lo ∧ Rep nd lo l ∧ Rep nd (nd i).high h ∧ t = .node (nd i).lvl l h := by
  cases h with
  | ff => omega
  | tt => omega
  | node _ h2 h3 h4 => exact ⟨_, _, _, h2, h3, h4, rfl⟩

theorem Rep.lt2 {nd : Nat → Node} {i : Nat} {t : T} (h : Rep nd i t) (hi : i < 2) : t = .leaf (i == 1) := by
  cases h with
  | ff => rfl
  | tt => rfl
  | node h1 _ _ _ => omega

theorem Rep.leaf {nd : Nat → Node} {i : Nat} (hi : i < 2) : Rep nd i (.leaf (i == 1)) := by
  have : i = 0 ∨ i = 1 := by omega
  rcases this with rfl | rfl
  · exact .ff
  · exact .tt

theorem Rep.leaf_idx {nd : Nat → Node} {i : Nat} {b : Bool} (h : Rep nd i (.leaf b)) : i = if b then 1 else 0 := by
  cases h <;> rfl

theorem Rep.live {nd : Nat → Node} {i : Nat} {t : T} (h : Rep nd i t) (hi : 2 ≤ i) : (nd i).low ≠ none := by
  obtain ⟨lo, _, _, h1, _⟩ := h.ge2 hi
  simp [h1]

/-- kept if the live nodes are kept -/
theorem Rep.mono {nd nd' : Nat → Node} (hh : ∀ i, 2 ≤ i → (nd i).low ≠ none → (nd' i).core = (nd i).core)
    {i : Nat} {t : T} (h : Rep nd i t) : Rep nd' i t := by
  induction h with
  | ff => exact .ff
  | tt => exact .tt
  | @node i lo l h h1 h2 _ _ ih1 ih2 =>
    obtain ⟨c1, c2, c3⟩ := core_iff.1 (hh i h1 (by simp [h2]))
    rw [← c1]
    rw [← c3] at ih2
    exact .node h1 (c2.trans h2) ih1 ih2

/-- nodes reachable from `R` -/
inductive Reach (nd : Nat → Node) (R : Nat → Prop) : Nat → Prop
  | root {i : Nat} : R i → Reach nd R i
  | low {i lo : Nat} : Reach nd R i → 2 ≤ i → (nd i).low = some lo → Reach nd R lo
  | high {i lo : Nat} : Reach nd R i → 2 ≤ i → (nd i).low = some lo → Reach nd R (nd i).high

def Root (k : K) (i : Nat) : Prop := i ∈ k.stack ∨ 0 < (k.nd i).ref

/-- not freed by a garbage collection -/
def Prot (k : K) (i : Nat) : Prop := i < 2 ∨ Reach k.nd (Root k) i

theorem Prot.low {k : K} {i lo : Nat} (h : Prot k i) (hi : 2 ≤ i) (hl : (k.nd i).low = some lo) : Prot k lo := by
  rcases h with h | h
  · omega
  · exact .inr (.low h hi hl)

theorem Prot.high {k : K} {i lo : Nat} (h : Prot k i) (hi : 2 ≤ i) (hl : (k.nd i).low = some lo) :
    Prot k (k.nd i).high := by
  rcases h with h | h
  · omega
  · exact .inr (.high h hi hl)

/-- kept if the protected nodes are kept -/
theorem Rep.prot {k : K} {nd' : Nat → Node} (hh : ∀ i, Prot k i → (nd' i).core = (k.nd i).core)
    {i : Nat} {t : T} (h : Rep k.nd i t) (hp : Prot k i) : Rep nd' i t := by
  induction h with
  | ff => exact .ff
  | tt => exact .tt
  | @node i lo l h h1 h2 _ _ ih1 ih2 =>
    obtain ⟨c1, c2, c3⟩ := core_iff.1 (hh i hp)
    rw [← c1]
    have ih2 := ih2 (hp.high h1 h2)
    rw [← c3] at ih2
    exact .node h1 (c2.trans h2) (ih1 (hp.low h1 h2)) ih2

/-- meaning of the operations -/
def Bop.f : Bop → Bool → Bool → Bool
  | .and, a, b => a && b
  | .or, a, b => a || b
  | .imp, a, b => !a || b
  | .equiv, a, b => a == b

/-- levels on the path along the high successors -/
def T.hs : T → List Nat
  | .leaf _ => []
  | .node v _ h => v :: h.hs

/-- literals on the path of a conjunction of literals -/
def T.cp : T → List (Nat × Bool)
  | .leaf _ => []
  | .node v l h => if l = .leaf false then (v, true) :: h.cp else (v, false) :: l.cp

/-- override an assignment -/
def over (L : List (Nat × Bool)) (ρ : Nat → Bool) : Nat → Bool := fun v => (L.lookup v).getD (ρ v)

/-- the quantified function of `t` -/
def Quant (op : Bop) (S : List Nat) (t : T) (ρ : Nat → Bool) : Prop :=
  match op with
  | .or => ∃ σ : Nat → Bool, (∀ v, v ∉ S → σ v = ρ v) ∧ t.eval σ = true
  | _ => ∀ σ : Nat → Bool, (∀ v, v ∉ S → σ v = ρ v) → t.eval σ = true

/-- entries of the apply cache are right -/
def ApOk (nd : Nat → Node) (e : Entry) : Prop :=
  ∀ l, e.a = some l →
    (∀ op : Bop, e.c = op.v → ∃ t1 t2 t, Rep nd l t1 ∧ Rep nd e.b t2 ∧ Rep nd e.res t ∧
      ∀ ρ, t.eval ρ = op.f (t1.eval ρ) (t2.eval ρ)) ∧
    (e.c = notV → ∃ t1 t, Rep nd l t1 ∧ Rep nd e.res t ∧ ∀ ρ, t.eval ρ = !t1.eval ρ)

/-- the operation of a quantification identifier -/
def qop (id : Nat) : Bop := if id % 8 = 0 then .or else .and

/-- entries of the quantification cache are right -/
def QuOk (nd : Nat → Node) (e : Entry) : Prop :=
  ∀ r, e.a = some r → ∃ tr tv t, Rep nd r tr ∧ Rep nd (e.c / 8) tv ∧ Rep nd e.res t ∧
    ∀ ρ, t.eval ρ = true ↔ Quant (qop e.c) tv.hs tr ρ

/-- entries of `restrict` in the misc cache are right (identifiers below 9 belong to the counting functions) -/
def MiOk (nd : Nat → Node) (e : Entry) : Prop :=
  ∀ r, e.a = some r → 9 ≤ e.c → ∃ tr tv t, Rep nd r tr ∧ Rep nd (e.c / 8) tv ∧ Rep nd e.res t ∧
    ∀ ρ, t.eval ρ = tr.eval (over tv.cp ρ)

structure Inv (P : Par) (k : K) : Prop where
  sz : 2 ≤ k.size
  live : ∀ i, 2 ≤ i → (k.nd i).low ≠ none → i < k.size ∧ ∃ t, Rep k.nd i t ∧ Ord k.n 0 t
  uniq : ∀ i j, 2 ≤ i → 2 ≤ j → (k.nd i).low ≠ none → (k.nd i).core = (k.nd j).core → i = j
  bmem : ∀ i lo, 2 ≤ i → (k.nd i).low = some lo →
    i ∈ k.bucket (P.hash (k.nd i).lvl lo (k.nd i).high k.size)
  blive : ∀ h i, i ∈ k.bucket h → 2 ≤ i ∧ (k.nd i).low ≠ none
  fmem : ∀ i ∈ k.free, 2 ≤ i ∧ i < k.size ∧ (k.nd i).low = none
  fnd : k.free.Nodup
  rlive : ∀ i, 2 ≤ i → 0 < (k.nd i).ref → (k.nd i).low ≠ none
  slive : ∀ i ∈ k.stack, 2 ≤ i → (k.nd i).low ≠ none
  ap : ∀ s, ApOk k.nd (k.apply s)
  qu : ∀ s, QuOk k.nd (k.quant s)
  mi : ∀ s, MiOk k.nd (k.misc s)

theorem Inv.ord {P : Par} {k : K} (hi : Inv P k) {i : Nat} {t : T} (h : Rep k.nd i t) : Ord k.n 0 t := by
  by_cases h2 : 2 ≤ i
  · obtain ⟨_, t', h3, h4⟩ := hi.live i h2 (h.live h2)
    rw [h.fun h3]
    exact h4
  · rw [h.lt2 (by omega)]
    trivial

theorem Inv.rep {P : Par} {k : K} (hi : Inv P k) {i : Nat} (h : 2 ≤ i → (k.nd i).low ≠ none) : ∃ t, Rep k.nd i t := by
  by_cases h2 : 2 ≤ i
  · obtain ⟨_, t, h3, _⟩ := hi.live i h2 (h h2)
    exact ⟨t, h3⟩
  · exact ⟨_, .leaf (by omega)⟩

theorem Inv.prot_live {P : Par} {k : K} (hi : Inv P k) {i : Nat} (h : Prot k i) (h2 : 2 ≤ i) : (k.nd i).low ≠ none := by
  rcases h with h | h
  · omega
  · induction h with
    | root h => rcases h with h | h
                · exact hi.slive _ h h2
                · exact hi.rlive _ h2 h
    | low _ h3 h4 ih =>
      obtain ⟨t, ht⟩ := hi.rep (fun _ => ih h3)
      obtain ⟨lo, l, h, h5, h6, _⟩ := ht.ge2 h3
      rw [h4] at h5
      cases h5
      exact h6.live h2
    | high _ h3 h4 ih =>
      obtain ⟨t, ht⟩ := hi.rep (fun _ => ih h3)
      obtain ⟨lo, l, h, h5, _, h6, _⟩ := ht.ge2 h3
      exact h6.live h2

/-- hash consing: equal trees have equal roots -/
theorem Inv.idx {P : Par} {k : K} (hi : Inv P k) {i j : Nat} {t : T} (h1 : Rep k.nd i t) (h2 : Rep k.nd j t) :
    i = j := by
  induction t generalizing i j with
  | leaf b => rw [h1.leaf_idx, h2.leaf_idx]
  | node v l h ih1 ih2 =>
    have hi2 : 2 ≤ i := by
      by_cases hh : 2 ≤ i
      · exact hh
      · have := h1.lt2 (by omega)
        cases this
    have hj2 : 2 ≤ j := by
      by_cases hh : 2 ≤ j
      · exact hh
      · have := h2.lt2 (by omega)
        cases this
    obtain ⟨lo, l1, h1', a1, a2, a3, a4⟩ := h1.ge2 hi2
    obtain ⟨lo', l2, h2', b1, b2, b3, b4⟩ := h2.ge2 hj2
    injection a4 with a4 a5 a6
    injection b4 with b4 b5 b6
    subst a5 a6 b5 b6
    refine hi.uniq i j hi2 hj2 (by simp [a1]) (core_iff.2 ⟨a4.symm.trans b4, ?_, ih2 a3 b3⟩)
    rw [a1, b1, ih1 a2 b2]

/-- entries of the counting functions in the misc cache of `k'` were in `k`, for the same trees -/
def Surv (k k' : K) : Prop := ∀ s r, (k'.misc s).a = some r → (k'.misc s).c < 9 →
  k'.misc s = k.misc s ∧ ∀ t, Rep k.nd r t → Rep k'.nd r t

/-- what the operations leave unchanged -/
structure Keep (k k' : K) : Prop where
  n : k'.n = k.n
  stack : k'.stack = k.stack
  refs : ∀ i, (k'.nd i).ref = (k.nd i).ref
  core : ∀ i, Prot k i → (k'.nd i).core = (k.nd i).core
  vars : k'.vars = k.vars
  qset : k'.qset = k.qset
  qid : k'.qid = k.qid
  qlast : k'.qlast = k.qlast
  heap : k'.heap = k.heap
  gcs : k.gcs ≤ k'.gcs
  surv : Surv k k'

theorem Surv.refl (k : K) : Surv k k := fun _ _ _ _ => ⟨rfl, fun _ h => h⟩

theorem Surv.trans {k k1 k2 : K} (h : Surv k k1) (g : Surv k1 k2) : Surv k k2 := fun s r ha hc => by
  obtain ⟨e1, e2⟩ := g s r ha hc
  obtain ⟨e3, e4⟩ := h s r (e1 ▸ ha) (e1 ▸ hc)
  exact ⟨e1.trans e3, fun t ht => e2 t (e4 t ht)⟩

theorem Keep.refl (k : K) : Keep k k := ⟨rfl, rfl, fun _ => rfl, fun _ _ => rfl, rfl, rfl, rfl, rfl, rfl, Nat.le_refl _, .refl k⟩

theorem Keep.prot {k k' : K} (h : Keep k k') {i : Nat} (hp : Prot k i) : Prot k' i := by
  rcases hp with hp | hp
  · exact .inl hp
  · have key : ∀ i, Reach k.nd (Root k) i → Reach k'.nd (Root k') i := by
      intro i hi
      induction hi with
      | root hr =>
        refine .root ?_
        rcases hr with hr | hr
        · exact .inl (h.stack ▸ hr)
        · exact .inr (h.refs _ ▸ hr)
      | low h1 h2 h3 ih =>
        obtain ⟨_, c2, _⟩ := core_iff.1 (h.core _ (.inr h1))
        exact .low ih h2 (c2.trans h3)
      | high h1 h2 h3 ih =>
        obtain ⟨_, c2, c3⟩ := core_iff.1 (h.core _ (.inr h1))
        rw [← c3]
        exact .high ih h2 (c2.trans h3)
    exact .inr (key i hp)

theorem Keep.trans {k k1 k2 : K} (h : Keep k k1) (g : Keep k1 k2) : Keep k k2 :=
  ⟨g.n.trans h.n, g.stack.trans h.stack, fun i => (g.refs i).trans (h.refs i),
    fun i hp => (g.core i (h.prot hp)).trans (h.core i hp), g.vars.trans h.vars, g.qset.trans h.qset,
    g.qid.trans h.qid, g.qlast.trans h.qlast, g.heap.trans h.heap, Nat.le_trans h.gcs g.gcs, h.surv.trans g.surv⟩

theorem Keep.rep {k k' : K} (h : Keep k k') {i : Nat} {t : T} (hp : Prot k i) (hr : Rep k.nd i t) :
    Rep k'.nd i t := hr.prot h.core hp

/-! ### Marking -/

theorem mark_le (nd : Nat → Node) : ∀ (f : Nat) (m : Nat → Bool) (i j : Nat), m j = true → mark nd f m i j = true
  | 0, m, i, j, h => h
  | f + 1, m, i, j, h => by
    unfold mark
    split
    · exact h
    · split
      · exact h
      · cases (nd i).low with
        | none => exact h
        | some lo =>
          refine mark_le nd f _ _ _ (mark_le nd f _ _ _ ?_)
          by_cases hj : j = i
          · rw [hj]; simp
          · rw [upd_ne _ _ hj]; exact h

/-- `j` is a live node with marked successors -/
def Shut (nd : Nat → Node) (m : Nat → Bool) (j : Nat) : Prop :=
  2 ≤ j ∧ ∃ lo, (nd j).low = some lo ∧ (lo < 2 ∨ m lo = true) ∧ ((nd j).high < 2 ∨ m (nd j).high = true)

theorem Shut.mono {nd : Nat → Node} {m m' : Nat → Bool} (h : ∀ j, m j = true → m' j = true) {j : Nat}
    (hs : Shut nd m j) : Shut nd m' j := by
  obtain ⟨h1, lo, h2, h3, h4⟩ := hs
  exact ⟨h1, lo, h2, h3.imp id (h _), h4.imp id (h _)⟩

theorem mark_spec {nd : Nat → Node} {n : Nat} : ∀ {f : Nat} {m : Nat → Bool} {i d : Nat} {t : T}, Rep nd i t →
    Ord n d t → n < f + d →
    (i < 2 ∨ mark nd f m i i = true) ∧
    ∀ j, mark nd f m i j = true → m j = true ∨ Shut nd (mark nd f m i) j
  | 0, m, i, d, t, hr, ho, hf => by
    have : i < 2 := by
      cases hr with
      | ff => omega
      | tt => omega
      | node _ _ _ _ =>
        obtain ⟨h1, h2, _⟩ := ho
        omega
    exact ⟨.inl this, fun j hj => .inl hj⟩
  | f + 1, m, i, d, t, hr, ho, hf => by
    by_cases h2 : i < 2
    · unfold mark
      rw [if_pos h2]
      exact ⟨.inl h2, fun j hj => .inl hj⟩
    · obtain ⟨lo, l, h, e1, e2, e3, rfl⟩ := hr.ge2 (by omega)
      obtain ⟨o1, o2, o3, o4, o5⟩ := ho
      by_cases hm : m i = true
      · unfold mark
        rw [if_neg h2, if_pos hm]
        exact ⟨.inr hm, fun j hj => .inl hj⟩
      · have he : mark nd (f + 1) m i = mark nd f (mark nd f (upd m i true) lo) (nd i).high := by
          conv => lhs; unfold mark
          rw [if_neg h2, if_neg hm, e1]
        rw [he]
        obtain ⟨a1, a2⟩ := mark_spec (f := f) (m := upd m i true) e2 o4 (by omega)
        obtain ⟨b1, b2⟩ := mark_spec (f := f) (m := mark nd f (upd m i true) lo) e3 o5 (by omega)
        have hle := mark_le nd f (mark nd f (upd m i true) lo) (nd i).high
        have hii : mark nd f (mark nd f (upd m i true) lo) (nd i).high i = true :=
          hle _ (mark_le nd f _ _ _ (by simp))
        refine ⟨.inr hii, fun j hj => ?_⟩
        rcases b2 j hj with hj | hj
        · rcases a2 j hj with hj | hj
          · by_cases hji : j = i
            · subst hji
              refine .inr ⟨by omega, lo, e1, a1.imp id (hle _), b1⟩
            · rw [upd_ne _ _ hji] at hj
              exact .inl hj
          · exact .inr (hj.mono hle)
        · exact .inr hj

theorem marks_fold {nd : Nat → Node} {n f : Nat} (hf : n < f) {ind : Nat → Bool} : ∀ {L : List Nat} {m : Nat → Bool},
    (∀ i ∈ L, ind i = true → ∃ t, Rep nd i t ∧ Ord n 0 t) → (∀ j, m j = true → Shut nd m j) →
    let m' := L.foldl (fun m i => if ind i = true then mark nd f m i else m) m
    (∀ j, m j = true → m' j = true) ∧ (∀ i ∈ L, ind i = true → i < 2 ∨ m' i = true) ∧ ∀ j, m' j = true → Shut nd m' j
  | [], m, _, hm => ⟨fun _ h => h, by simp, hm⟩
  | i :: L, m, hl, hm => by
    have h1 : (∀ j, m j = true → (if ind i = true then mark nd f m i else m) j = true) ∧
        (ind i = true → i < 2 ∨ (if ind i = true then mark nd f m i else m) i = true) ∧
        ∀ j, (if ind i = true then mark nd f m i else m) j = true →
          Shut nd (if ind i = true then mark nd f m i else m) j := by
      by_cases hi : ind i = true
      · rw [if_pos hi]
        obtain ⟨t, h1, h2⟩ := hl i (by simp) hi
        obtain ⟨a1, a2⟩ := mark_spec (m := m) h1 h2 (show n < f + 0 by omega)
        refine ⟨fun j hj => mark_le nd f m i j hj, fun _ => a1, fun j hj => ?_⟩
        rcases a2 j hj with h | h
        · exact (hm j h).mono fun j hj => mark_le nd f m i j hj
        · exact h
      · rw [if_neg hi]
        exact ⟨fun _ h => h, fun h => absurd h hi, hm⟩
    obtain ⟨c1, c2, c3⟩ := h1
    obtain ⟨d1, d2, d3⟩ := marks_fold hf (L := L) (fun i hi => hl i (by simp [hi])) c3
    refine ⟨fun j hj => d1 j (c1 j hj), fun j hj hd => ?_, d3⟩
    rcases List.mem_cons.1 hj with rfl | hj
    · exact (c2 hd).imp id (d1 _)
    · exact d2 j hj hd

theorem marks_spec {P : Par} {k : K} (hi : Inv P k) :
    (∀ i, Prot k i → i < 2 ∨ marks k i = true) ∧ ∀ j, marks k j = true → Shut k.nd (marks k) j := by
  have hf : k.n < k.n + 1 := by omega
  have hs : ∀ i ∈ k.stack.reverse, (fun _ => true : Nat → Bool) i = true → ∃ t, Rep k.nd i t ∧ Ord k.n 0 t :=
    fun i h _ => by
      obtain ⟨t, ht⟩ := hi.rep (fun h2 => hi.slive i (by simpa using h) h2)
      exact ⟨t, ht, hi.ord ht⟩
  obtain ⟨a1, a2, a3⟩ := marks_fold hf (m := fun _ => false) hs (by simp)
  have hr : ∀ i ∈ List.range k.size, decide (0 < (k.nd i).ref) = true → ∃ t, Rep k.nd i t ∧ Ord k.n 0 t :=
    fun i h h2 => by
      obtain ⟨t, ht⟩ := hi.rep (fun h3 => hi.rlive i h3 (by simpa using h2))
      exact ⟨t, ht, hi.ord ht⟩
  obtain ⟨b1, b2, b3⟩ := marks_fold hf (ind := fun i => decide (0 < (k.nd i).ref)) hr a3
  have hm : (List.range k.size).foldl
      (fun m i => if decide (0 < (k.nd i).ref) = true then mark k.nd (k.n + 1) m i else m)
      (k.stack.reverse.foldl (fun m i => if (fun _ => true : Nat → Bool) i = true then mark k.nd (k.n + 1) m i else m)
        fun _ => false) = marks k := by
    simp [marks]
  rw [hm] at b1 b2 b3
  refine ⟨fun i hp => ?_, b3⟩
  rcases hp with hp | hp
  · exact .inl hp
  · induction hp with
    | @root i hr =>
      rcases hr with hr | hr
      · exact (a2 i (by simpa using hr) rfl).imp id (b1 i)
      · by_cases h2 : i < 2
        · exact .inl h2
        · exact b2 i (by simpa using (hi.live i (by omega) (hi.rlive i (by omega) hr)).1) (by simpa using hr)
    | low _ h2 h3 ih =>
      rcases ih with ih | ih
      · omega
      · obtain ⟨_, lo, c1, c2, _⟩ := b3 _ ih
        rw [h3] at c1
        cases c1
        exact c2
    | high _ h2 h3 ih =>
      rcases ih with ih | ih
      · omega
      · obtain ⟨_, lo, c1, _, c2⟩ := b3 _ ih
        exact c2

/-! ### Garbage collection and resizing -/

/-- kernels with fewer nodes, fresh hash table and free list -/
structure Sub (k k' : K) : Prop where
  keep : Keep k k'
  sub : ∀ i, 2 ≤ i → (k'.nd i).low ≠ none → (k'.nd i).core = (k.nd i).core
  full : ∀ i, 2 ≤ i → i < k'.size → (k'.nd i).low = none → i ∈ k'.free

theorem rehash_mem {P : Par} {k : K} {h i : Nat} : i ∈ (rehash P k).bucket h ↔
    (2 ≤ i ∧ i < 2 + (k.size - 2)) ∧ ∃ lo, (k.nd i).low = some lo ∧ P.hash (k.nd i).lvl lo (k.nd i).high k.size = h := by
  simp only [rehash, List.mem_filter, List.mem_range'_1]
  cases hl : (k.nd i).low with
  | none => simp
  | some lo => simp

theorem rehash_free {P : Par} {k : K} {i : Nat} : i ∈ (rehash P k).free ↔
    (2 ≤ i ∧ i < 2 + (k.size - 2)) ∧ (k.nd i).low = none := by
  simp [rehash, List.mem_filter, List.mem_range'_1]

theorem gbc_spec {P : Par} {k : K} (hi : Inv P k) : Inv P (gbc P k) ∧ Sub k (gbc P k) := by
  obtain ⟨hm1, hm2⟩ := marks_spec hi
  have hnd : ∀ i, (gbc P k).nd i = if 2 ≤ i ∧ marks k i = false then { k.nd i with low := none } else k.nd i :=
    fun _ => rfl
  have hsz : (gbc P k).size = k.size := rfl
  have hpos : ∀ i, i < 2 ∨ marks k i = true → (gbc P k).nd i = k.nd i := fun i h => by
    rw [hnd, if_neg]
    rintro ⟨h1, h2⟩
    rcases h with h | h
    · omega
    · rw [h] at h2; cases h2
  have hlive : ∀ i, 2 ≤ i → ((gbc P k).nd i).low ≠ none → marks k i = true := fun i h2 hl => by
    cases hm : marks k i with
    | true => rfl
    | false => rw [hnd, if_pos ⟨h2, hm⟩] at hl; exact absurd rfl hl
  have hrep : ∀ i t, Rep k.nd i t → i < 2 ∨ marks k i = true → Rep (gbc P k).nd i t := by
    intro i t hr
    induction hr with
    | ff => exact fun _ => .ff
    | tt => exact fun _ => .tt
    | @node i lo l h h1 h2 _ _ ih1 ih2 =>
      intro hm
      have hm' : marks k i = true := hm.resolve_left (by omega)
      obtain ⟨_, lo', c1, c2, c3⟩ := hm2 i hm'
      rw [h2] at c1
      cases c1
      have he := hpos i hm
      have := Rep.node (nd := (gbc P k).nd) (i := i) (lo := lo) h1 (by rw [he]; exact h2) (ih1 c2)
        (by rw [he]; exact ih2 c3)
      rw [he] at this
      exact this
  have hbk : (gbc P k).bucket = (rehash P { k with
      nd := fun i => if 2 ≤ i ∧ marks k i = false then { k.nd i with low := none } else k.nd i }).bucket := rfl
  have hfr : (gbc P k).free = (rehash P { k with
      nd := fun i => if 2 ≤ i ∧ marks k i = false then { k.nd i with low := none } else k.nd i }).free := rfl
  refine ⟨⟨hi.sz, ?_, ?_, ?_, ?_, ?_, ?_, ?_, ?_, ?_, ?_, ?_⟩, ⟨⟨rfl, rfl, ?_, ?_, rfl, rfl, rfl, rfl, rfl, ?_, fun s r ha => by cases ha⟩, ?_, ?_⟩⟩
  · intro i h2 hl
    have hm := hlive i h2 hl
    rw [hpos i (.inr hm)] at hl
    obtain ⟨a1, t, a2, a3⟩ := hi.live i h2 hl
    exact ⟨a1, t, hrep i t a2 (.inr hm), a3⟩
  · intro i j h2 h3 hl hc
    have hm := hlive i h2 hl
    have hlj : ((gbc P k).nd j).low ≠ none := by
      obtain ⟨_, c2, _⟩ := core_iff.1 hc
      rw [← c2]; exact hl
    have hmj := hlive j h3 hlj
    rw [hpos i (.inr hm)] at hl hc
    rw [hpos j (.inr hmj)] at hc
    exact hi.uniq i j h2 h3 hl hc
  · intro i lo h2 hl
    rw [hbk]
    refine rehash_mem.2 ⟨⟨h2, ?_⟩, lo, hl, rfl⟩
    have hm := hlive i h2 (by rw [hl]; simp)
    rw [hpos i (.inr hm)] at hl
    have := (hi.live i h2 (by rw [hl]; simp)).1
    show i < 2 + (k.size - 2)
    omega
  · intro h i hb
    rw [hbk] at hb
    obtain ⟨⟨h1, _⟩, lo, h2, _⟩ := rehash_mem.1 hb
    exact ⟨h1, by rw [show ((gbc P k).nd i).low = some lo from h2]; simp⟩
  · intro i hf
    rw [hfr] at hf
    obtain ⟨⟨h1, h2⟩, h3⟩ := rehash_free.1 hf
    refine ⟨h1, ?_, h3⟩
    have h2 : i < 2 + (k.size - 2) := h2
    have := hi.sz
    omega
  · exact (List.nodup_range').filter _
  · intro i h2 hr
    have hr' : 0 < (k.nd i).ref := by
      rw [hnd] at hr
      split at hr <;> exact hr
    have hm := (hm1 i (.inr (.root (.inr hr')))).resolve_left (by omega)
    rw [hpos i (.inr hm)]
    exact hi.rlive i h2 hr'
  · intro i hs h2
    have hm := (hm1 i (.inr (.root (.inl hs)))).resolve_left (by omega)
    rw [hpos i (.inr hm)]
    exact hi.slive i hs h2
  · intro s l hl
    cases hl
  · intro s l hl
    cases hl
  · intro s l hl
    cases hl
  · intro i
    rw [hnd]
    split <;> rfl
  · intro i hp
    rw [hpos i (hm1 i hp)]
  · exact Nat.le_succ _
  · intro i h2 hl
    rw [hpos i (.inr (hlive i h2 hl))]
  · intro i h2 h3 h4
    rw [hfr]
    refine rehash_free.2 ⟨⟨h2, ?_⟩, h4⟩
    have h3 : i < k.size := h3
    show i < 2 + (k.size - 2)
    omega

theorem resize_spec {P : Par} {k : K} (hg : ∀ s, s < P.grow s) (hi : Inv P k) :
    Inv P (nodeResize P k) ∧ Sub k (nodeResize P k) ∧ (nodeResize P k).free ≠ [] := by
  have hnd : ∀ i, (nodeResize P k).nd i = if i < k.size then k.nd i else {} := fun _ => rfl
  have hsz : (nodeResize P k).size = P.grow k.size := rfl
  have hs2 := hi.sz
  have hgs := hg k.size
  have hpos : ∀ i, i < k.size → (nodeResize P k).nd i = k.nd i := fun i h => by rw [hnd, if_pos h]
  have hold : ∀ i, 2 ≤ i → (k.nd i).low ≠ none → (nodeResize P k).nd i = k.nd i :=
    fun i h2 hl => hpos i (hi.live i h2 hl).1
  have hlive : ∀ i, ((nodeResize P k).nd i).low ≠ none → i < k.size := fun i hl => by
    by_cases h : i < k.size
    · exact h
    · rw [hnd, if_neg h] at hl; exact absurd rfl hl
  have hrep : ∀ {i t}, Rep k.nd i t → Rep (nodeResize P k).nd i t := fun {i t} hr =>
    hr.mono fun i h2 hl => by rw [hold i h2 hl]
  have hbk : (nodeResize P k).bucket = (rehash P { k with
      size := P.grow k.size, nd := fun i => if i < k.size then k.nd i else {} }).bucket := rfl
  have hfr : (nodeResize P k).free = (rehash P { k with
      size := P.grow k.size, nd := fun i => if i < k.size then k.nd i else {} }).free := rfl
  have href : ∀ i, ((nodeResize P k).nd i).ref = (k.nd i).ref := fun i => by
    rw [hnd]
    split
    · rfl
    · next h =>
      cases h0 : (k.nd i).ref with
      | zero => rfl
      | succ r =>
        have := (hi.live i (by omega) (hi.rlive i (by omega) (by omega))).1
        omega
  refine ⟨⟨by omega, ?_, ?_, ?_, ?_, ?_, ?_, ?_, ?_, ?_, ?_, ?_⟩,
    ⟨⟨rfl, rfl, href, ?_, rfl, rfl, rfl, rfl, rfl, Nat.le_refl _, fun _ _ _ _ => ⟨rfl, fun _ h => hrep h⟩⟩, ?_, ?_⟩, ?_⟩
  · intro i h2 hl
    have h3 := hlive i hl
    rw [hpos i h3] at hl
    obtain ⟨_, t, a2, a3⟩ := hi.live i h2 hl
    exact ⟨by omega, t, hrep a2, a3⟩
  · intro i j h2 h3 hl hc
    have hlj : ((nodeResize P k).nd j).low ≠ none := by
      obtain ⟨_, c2, _⟩ := core_iff.1 hc
      rw [← c2]; exact hl
    have h4 := hlive i hl
    have h5 := hlive j hlj
    rw [hpos i h4] at hl hc
    rw [hpos j h5] at hc
    exact hi.uniq i j h2 h3 hl hc
  · intro i lo h2 hl
    rw [hbk]
    refine rehash_mem.2 ⟨⟨h2, ?_⟩, lo, hl, rfl⟩
    have := hlive i (by rw [hl]; simp)
    show i < 2 + (P.grow k.size - 2)
    omega
  · intro h i hb
    rw [hbk] at hb
    obtain ⟨⟨h1, _⟩, lo, h2, _⟩ := rehash_mem.1 hb
    exact ⟨h1, by rw [show ((nodeResize P k).nd i).low = some lo from h2]; simp⟩
  · intro i hf
    rw [hfr] at hf
    obtain ⟨⟨h1, h2⟩, h3⟩ := rehash_free.1 hf
    refine ⟨h1, ?_, h3⟩
    have h2 : i < 2 + (P.grow k.size - 2) := h2
    omega
  · exact (List.nodup_range').filter _
  · intro i h2 hr
    rw [href] at hr
    have := hi.rlive i h2 hr
    rw [hold i h2 this]
    exact this
  · intro i hs h2
    have := hi.slive i hs h2
    rw [hold i h2 this]
    exact this
  · intro s l hl
    obtain ⟨a, b⟩ := hi.ap s l hl
    refine ⟨fun op ho => ?_, fun ho => ?_⟩
    · obtain ⟨t1, t2, t, r1, r2, r3, r4⟩ := a op ho
      exact ⟨t1, t2, t, hrep r1, hrep r2, hrep r3, r4⟩
    · obtain ⟨t1, t, r1, r2, r3⟩ := b ho
      exact ⟨t1, t, hrep r1, hrep r2, r3⟩
  · intro s l hl
    obtain ⟨t1, t2, t, r1, r2, r3, r4⟩ := hi.qu s l hl
    exact ⟨t1, t2, t, hrep r1, hrep r2, hrep r3, r4⟩
  · intro s l hl h9
    obtain ⟨t1, t2, t, r1, r2, r3, r4⟩ := hi.mi s l hl h9
    exact ⟨t1, t2, t, hrep r1, hrep r2, hrep r3, r4⟩
  · intro i hp
    by_cases h2 : 2 ≤ i
    · rw [hold i h2 (hi.prot_live hp h2)]
    · rw [hpos i (by omega)]
  · intro i h2 hl
    rw [hpos i (hlive i hl)]
  · intro i h2 h3 h4
    rw [hfr]
    refine rehash_free.2 ⟨⟨h2, ?_⟩, h4⟩
    show i < 2 + (P.grow k.size - 2)
    have h3 : i < P.grow k.size := h3
    omega
  · rw [hfr]
    refine List.ne_nil_of_mem (a := k.size) (rehash_free.2 ⟨⟨hs2, ?_⟩, ?_⟩)
    · show k.size < 2 + (P.grow k.size - 2)
      omega
    · show (if k.size < k.size then k.nd k.size else {}).low = none
      rw [if_neg (by omega)]

/-- a node with these contents does not exist -/
def Absent (k : K) (lvl lo hi : Nat) : Prop :=
  ∀ i, 2 ≤ i → (k.nd i).core ≠ (lvl, some lo, hi)

theorem room_spec {P : Par} {k : K} (hg : ∀ s, s < P.grow s) (hi : Inv P k) {lvl lo h : Nat} (ha : Absent k lvl lo h) :
    Inv P (room P k) ∧ Keep k (room P k) ∧ Absent (room P k) lvl lo h ∧ (room P k).free ≠ [] := by
  have habs : ∀ {k1 k2 : K}, Sub k1 k2 → Absent k1 lvl lo h → Absent k2 lvl lo h := fun {k1 k2} hs ha i h2 he => by
    refine ha i h2 ?_
    rw [← hs.sub i h2 (by have := congrArg (·.2.1) he; simp only [Node.core] at this; simp [this])]
    exact he
  unfold room
  by_cases hf : k.free = []
  · rw [if_pos hf]
    obtain ⟨g1, g2⟩ := gbc_spec hi
    have g3 := habs g2 ha
    dsimp only
    by_cases hc : (gbc P k).free.length * 100 / (gbc P k).size ≤ 20
    · rw [if_pos hc]
      obtain ⟨r1, r2, r3⟩ := resize_spec hg g1
      exact ⟨r1, g2.keep.trans r2.keep, habs r2 g3, r3⟩
    · rw [if_neg hc]
      refine ⟨g1, g2.keep, g3, fun h0 => hc ?_⟩
      rw [h0]
      simp
  · rw [if_neg hf]
    exact ⟨hi, .refl k, ha, hf⟩

theorem alloc_spec {P : Par} {k : K} (hi : Inv P k) (hf : k.free ≠ []) {lvl lo h : Nat} (ha : Absent k lvl lo h)
    {tl th : T} (hl : Rep k.nd lo tl) (hh : Rep k.nd h th) (hn : lvl < k.n) (hne : lo ≠ h)
    (ol : Ord k.n (lvl + 1) tl) (oh : Ord k.n (lvl + 1) th) :
    ∃ x k', alloc P k lvl lo h = some (x, k') ∧ Inv P k' ∧ Keep k k' ∧ Rep k'.nd x (.node lvl tl th) := by
  unfold alloc
  cases hfr : k.free with
  | nil => exact absurd hfr hf
  | cons p ps =>
    obtain ⟨p1, p2, p3⟩ := hi.fmem p (by simp [hfr])
    refine ⟨p, _, rfl, ?_⟩
    generalize hk' : ({ k with
      nd := upd k.nd p { ref := (k.nd p).ref, lvl := lvl, low := some lo, high := h }
      free := ps
      bucket := upd k.bucket (P.hash lvl lo h k.size) (p :: k.bucket (P.hash lvl lo h k.size)) } : K) = k'
    have hnd : k'.nd = upd k.nd p { ref := (k.nd p).ref, lvl := lvl, low := some lo, high := h } := by rw [← hk']
    have hne' : ∀ i, i ≠ p → k'.nd i = k.nd i := fun i h => by rw [hnd, upd_ne _ _ h]
    have hp : k'.nd p = { ref := (k.nd p).ref, lvl := lvl, low := some lo, high := h } := by rw [hnd, upd_self]
    have hold : ∀ i, (k.nd i).low ≠ none → k'.nd i = k.nd i := fun i hl => hne' i (by rintro rfl; exact hl p3)
    have hrep : ∀ {i t}, Rep k.nd i t → Rep k'.nd i t := fun {i t} hr =>
      hr.mono fun i h2 hl => by rw [hold i hl]
    have hnew : Rep k'.nd p (.node lvl tl th) := by
      have := Rep.node (nd := k'.nd) (i := p) (lo := lo) (l := tl) (h := th) p1 (by rw [hp]) (hrep hl)
        (by rw [hp]; exact hrep hh)
      rw [hp] at this
      exact this
    have hord : Ord k.n 0 (.node lvl tl th) :=
      ⟨Nat.zero_le _, hn, fun e => hne (hi.idx hl (e ▸ hh)), ol, oh⟩
    have e1 : k'.n = k.n := by rw [← hk']
    have e2 : k'.size = k.size := by rw [← hk']
    have e3 : k'.free = ps := by rw [← hk']
    have e4 : k'.stack = k.stack := by rw [← hk']
    have e5 : k'.bucket = upd k.bucket (P.hash lvl lo h k.size) (p :: k.bucket (P.hash lvl lo h k.size)) := by
      rw [← hk']
    have e6 : k'.apply = k.apply := by rw [← hk']
    have e7 : k'.quant = k.quant := by rw [← hk']
    have e8 : k'.misc = k.misc := by rw [← hk']
    have hnodup : p ∉ ps ∧ ps.Nodup := by
      have := hi.fnd
      rw [hfr] at this
      exact List.nodup_cons.1 this
    refine ⟨⟨by rw [e2]; exact hi.sz, ?_, ?_, ?_, ?_, ?_, ?_, ?_, ?_, ?_, ?_, ?_⟩,
      ⟨e1, e4, ?_, ?_, by rw [← hk'], by rw [← hk'], by rw [← hk'], by rw [← hk'], by rw [← hk'], by rw [← hk'],
        fun _ _ _ _ => ⟨by rw [e8], fun _ h => hrep h⟩⟩, hnew⟩
    · intro i h2 hl
      rw [e1, e2]
      by_cases hip : i = p
      · subst hip
        exact ⟨p2, _, hnew, hord⟩
      · rw [hne' i hip] at hl
        obtain ⟨a1, t, a2, a3⟩ := hi.live i h2 hl
        exact ⟨a1, t, hrep a2, a3⟩
    · intro i j h2 h3 hl hc
      by_cases hip : i = p
      · by_cases hjp : j = p
        · rw [hip, hjp]
        · subst hip
          rw [hp, hne' j hjp] at hc
          exact absurd hc.symm (ha j h3)
      · by_cases hjp : j = p
        · subst hjp
          rw [hp, hne' i hip] at hc
          exact absurd hc (ha i h2)
        · rw [hne' i hip] at hl hc
          rw [hne' j hjp] at hc
          exact hi.uniq i j h2 h3 hl hc
    · intro i l2 h2 hl
      rw [e5, e2]
      by_cases hip : i = p
      · subst hip
        rw [hp] at hl ⊢
        injection hl with hl
        subst hl
        rw [upd_self]
        exact List.mem_cons_self
      · rw [hne' i hip] at hl ⊢
        have := hi.bmem i l2 h2 hl
        by_cases hb : P.hash (k.nd i).lvl l2 (k.nd i).high k.size = P.hash lvl lo h k.size
        · rw [hb] at this ⊢
          rw [upd_self]
          exact List.mem_cons_of_mem _ this
        · rw [upd_ne _ _ hb]
          exact this
    · intro hs i hb
      rw [e5] at hb
      have hb' : i = p ∨ i ∈ k.bucket hs := by
        by_cases hhs : hs = P.hash lvl lo h k.size
        · rw [hhs, upd_self] at hb
          rw [hhs]
          exact List.mem_cons.1 hb
        · rw [upd_ne _ _ hhs] at hb
          exact .inr hb
      rcases hb' with rfl | hb'
      · exact ⟨p1, by rw [hp]; simp⟩
      · obtain ⟨b1, b2⟩ := hi.blive hs i hb'
        exact ⟨b1, by rw [hold i b2]; exact b2⟩
    · intro i hfi
      rw [e3] at hfi
      obtain ⟨b1, b2, b3⟩ := hi.fmem i (by rw [hfr]; simp [hfi])
      rw [e2]
      refine ⟨b1, b2, ?_⟩
      rw [hne' i (by rintro rfl; exact hnodup.1 hfi)]
      exact b3
    · rw [e3]; exact hnodup.2
    · intro i h2 hr
      by_cases hip : i = p
      · subst hip; rw [hp]; simp
      · rw [hne' i hip] at hr ⊢
        exact hi.rlive i h2 hr
    · intro i hs h2
      rw [e4] at hs
      have := hi.slive i hs h2
      rw [hold i this]
      exact this
    · intro s l hl
      rw [e6] at hl ⊢
      obtain ⟨a, b⟩ := hi.ap s l hl
      refine ⟨fun op ho => ?_, fun ho => ?_⟩
      · obtain ⟨t1, t2, t, r1, r2, r3, r4⟩ := a op ho
        exact ⟨t1, t2, t, hrep r1, hrep r2, hrep r3, r4⟩
      · obtain ⟨t1, t, r1, r2, r3⟩ := b ho
        exact ⟨t1, t, hrep r1, hrep r2, r3⟩
    · intro s l hl
      rw [e7] at hl ⊢
      obtain ⟨t1, t2, t, r1, r2, r3, r4⟩ := hi.qu s l hl
      exact ⟨t1, t2, t, hrep r1, hrep r2, hrep r3, r4⟩
    · intro s l hl h9
      rw [e8] at hl h9 ⊢
      obtain ⟨t1, t2, t, r1, r2, r3, r4⟩ := hi.mi s l hl h9
      exact ⟨t1, t2, t, hrep r1, hrep r2, hrep r3, r4⟩
    · intro i
      by_cases hip : i = p
      · subst hip; rw [hp]
      · rw [hne' i hip]
    · intro i hpr
      by_cases h2 : 2 ≤ i
      · rw [hold i (hi.prot_live hpr h2)]
      · rw [hne' i (by omega)]

/-- `makeNode` returns the node of the tree that asks `lvl` first -/
theorem makeNode_spec {P : Par} {k : K} (hg : ∀ s, s < P.grow s) (hi : Inv P k) {lvl lo h : Nat} {tl th : T}
    (pl : Prot k lo) (ph : Prot k h) (hl : Rep k.nd lo tl) (hh : Rep k.nd h th) (hn : lvl < k.n)
    (ol : Ord k.n (lvl + 1) tl) (oh : Ord k.n (lvl + 1) th) :
    ∃ x k' t, makeNode P k lvl lo h = some (x, k') ∧ Inv P k' ∧ Keep k k' ∧ Rep k'.nd x t ∧ Ord k.n lvl t ∧
      ∀ ρ, t.eval ρ = if ρ lvl then th.eval ρ else tl.eval ρ := by
  unfold makeNode
  by_cases hne : lo = h
  · rw [if_pos hne]
    refine ⟨lo, k, tl, rfl, hi, .refl k, hl, ol.mono (by omega), fun ρ => ?_⟩
    subst hne
    rw [hl.fun hh]
    split <;> rfl
  · rw [if_neg hne]
    have hord : Ord k.n lvl (.node lvl tl th) :=
      ⟨Nat.le_refl _, hn, fun e => hne (hi.idx hl (e ▸ hh)), ol, oh⟩
    cases hf : findNode P k lvl lo h with
    | some i =>
      have h1 := List.mem_of_find?_eq_some hf
      have h2 := List.find?_some hf
      simp only [Bool.and_eq_true, beq_iff_eq] at h2
      obtain ⟨⟨e1, e2⟩, e3⟩ := h2
      obtain ⟨b1, b2⟩ := hi.blive _ i h1
      refine ⟨i, k, .node lvl tl th, rfl, hi, .refl k, ?_, hord, fun ρ => rfl⟩
      have := Rep.node (nd := k.nd) b1 e2 hl (by rw [e3]; exact hh)
      rw [e1] at this
      exact this
    | none =>
      have ha : Absent k lvl lo h := by
        intro i h2 he
        simp only [Node.core, Prod.mk.injEq] at he
        obtain ⟨c1, c2, c3⟩ := he
        have := List.find?_eq_none.1 hf i (by
          have := hi.bmem i lo h2 c2
          rw [c1, c3] at this
          exact this)
        simp [c1, c2, c3] at this
      obtain ⟨r1, r2, r3, r4⟩ := room_spec hg hi ha
      obtain ⟨x, k', a1, a2, a3, a4⟩ := alloc_spec r1 r4 r3 (r2.rep pl hl) (r2.rep ph hh) (by rw [r2.n]; exact hn) hne
        (by rw [r2.n]; exact ol) (by rw [r2.n]; exact oh)
      exact ⟨x, k', _, a1, a2, r2.trans a3, a4, hord, fun ρ => rfl⟩

end Verif.Bdd
