import Verif.Factory.Model
/-
Helper lemmas about the factory model: the representation invariant and its preservation.
-/
namespace Verif.Factory
open Verif

def posId (id : Nat) : Nat := if id % 2 = 0 then id + 1 else id

theorem negId_even {n : Nat} (h : n % 2 = 0) : negId n = n + 1 := by
  unfold negId
  obtain ⟨k, rfl⟩ : ∃ k, n = 2 * k := ⟨n / 2, by omega⟩
  apply Nat.eq_of_testBit_eq; intro i
  rw [Nat.testBit_xor]
  cases i with
  | zero => simp [Nat.testBit_zero]
  | succ i =>
    rw [Nat.testBit_succ, Nat.testBit_succ, Nat.testBit_succ]
    have : (2 * k + 1) / 2 = k := by omega
    simp [this]
theorem negId_odd {n : Nat} (h : n % 2 = 1) : negId n = n - 1 := by
  unfold negId
  obtain ⟨k, rfl⟩ : ∃ k, n = 2 * k + 1 := ⟨n / 2, by omega⟩
  apply Nat.eq_of_testBit_eq; intro i
  rw [Nat.testBit_xor]
  cases i with
  | zero => simp [Nat.testBit_zero]
  | succ i =>
    rw [Nat.testBit_succ, Nat.testBit_succ, Nat.testBit_succ]
    have : (2 * k + 1) / 2 = k := by omega
    simp [this]
theorem negId_cases (n : Nat) : (n % 2 = 0 ∧ negId n = n + 1) ∨ (n % 2 = 1 ∧ negId n + 1 = n) := by
  rcases Nat.mod_two_eq_zero_or_one n with h | h
  · exact Or.inl ⟨h, negId_even h⟩
  · exact Or.inr ⟨h, by rw [negId_odd h]; omega⟩

@[simp] theorem upd_self {K V : Type} [DecidableEq K] (m : K → V) (k : K) (v : V) : upd m k v k = v := by simp [upd]
theorem upd_ne {K V : Type} [DecidableEq K] (m : K → V) {k k' : K} (v : V) (h : k' ≠ k) : upd m k v k' = m k' := by
  simp [upd, h]

abbrev Nodes := H → Option Node

/-- `Valid` as a predicate on the node table -/
def V (N : Nodes) (h : H) : Prop := h = cFalse ∨ h = cTrue ∨ (N h).isSome

def Node.isNeg : Node → Bool
  | .lit _ false => true
  | .not _ => true
  | _ => false

def isConstLike (s : FSort) : Prop := s = .fls ∨ s = .tru

/-- Per-node part of the invariant. -/
def NodeOk (N : Nodes) (h : H) : Node → Prop
  | .lit nm false => N ⟨.lit, h.id + 1⟩ = some (.lit nm true)
  | .lit _ true => True
  | .not o => h.id + 1 = o.id ∧ (N o).isSome ∧ o.sort ≠ .lit ∧ o.sort ≠ .not
  | .impl l r => V N l ∧ V N r ∧ posId l.id < h.id ∧ posId r.id < h.id ∧ l.sort ≠ .fls ∧ l.sort ≠ .tru
      ∧ r.sort ≠ .fls ∧ r.sort ≠ .tru
  | .equiv l r => V N l ∧ V N r ∧ posId l.id < h.id ∧ posId r.id < h.id ∧ l.sort ≠ .fls ∧ l.sort ≠ .tru
      ∧ r.sort ≠ .fls ∧ r.sort ≠ .tru
  | .and ops => 2 ≤ ops.length ∧ ∀ o ∈ ops, (N o).isSome ∧ posId o.id < h.id ∧ o.sort ≠ .and
  | .or ops => 2 ≤ ops.length ∧ ∀ o ∈ ops, (N o).isSome ∧ posId o.id < h.id ∧ o.sort ≠ .or
  | .cc _ k vs => vs ≠ [] ∧ 0 ≤ k ∧ ∀ o ∈ vs, (∃ nm, N o = some (.lit nm true))
  | .pbc _ _ ts => ts ≠ [] ∧ ∀ t ∈ ts, (∃ nm p, N t.2 = some (.lit nm p))

/-- Invariant on the node table and the id counter. -/
structure Core (N : Nodes) (id : Nat) : Prop where
  lo : 2 ≤ id
  odd : id = 2 ∨ id % 2 = 1
  sort : ∀ {h n}, N h = some n → n.sort = h.sort
  range : ∀ {h n}, N h = some n → 2 ≤ h.id ∧ posId h.id ≤ id
  uniq : ∀ {h n h' n'}, N h = some n → N h' = some n' → h.id = h'.id → h = h'
  par : ∀ {h n}, N h = some n → (h.id % 2 = 0 ↔ n.isNeg = true)
  ok : ∀ {h n}, N h = some n → NodeOk N h n
  inj : ∀ {h n h'}, N h = some n → N h' = some n → h = h'

/-- table extension -/
def Ext (N N' : Nodes) : Prop := ∀ h n, N h = some n → N' h = some n

theorem Ext.refl (N : Nodes) : Ext N N := fun _ _ h => h
theorem Ext.trans {N1 N2 N3 : Nodes} (h : Ext N1 N2) (h' : Ext N2 N3) : Ext N1 N3 := fun _ _ x => h' _ _ (h _ _ x)
theorem Ext.some {N N' : Nodes} (h : Ext N N') {x : H} (hx : (N x).isSome) : (N' x).isSome := by
  obtain ⟨n, hn⟩ := Option.isSome_iff_exists.1 hx
  rw [h _ _ hn]; rfl
theorem Ext.V {N N' : Nodes} (h : Ext N N') {x : H} (hx : V N x) : V N' x := by
  rcases hx with hx | hx | hx
  · exact .inl hx
  · exact .inr (.inl hx)
  · exact .inr (.inr (h.some hx))
theorem ext_upd {N : Nodes} {h : H} {n : Node} (hn : N h = none) : Ext N (upd N h (some n)) := by
  intro x m hx
  by_cases e : x = h
  · subst e; simp [hn] at hx
  · rw [upd_ne _ _ e]; exact hx

theorem NodeOk.ext {N N' : Nodes} (e : Ext N N') {h : H} {n : Node} (ok : NodeOk N h n) : NodeOk N' h n := by
  cases n with
  | lit nm p => cases p with
    | true => trivial
    | false => exact e _ _ ok
  | not o => exact ⟨ok.1, e.some ok.2.1, ok.2.2⟩
  | impl l r => exact ⟨e.V ok.1, e.V ok.2.1, ok.2.2⟩
  | equiv l r => exact ⟨e.V ok.1, e.V ok.2.1, ok.2.2⟩
  | and ops => exact ⟨ok.1, fun o ho => ⟨e.some (ok.2 o ho).1, (ok.2 o ho).2⟩⟩
  | or ops => exact ⟨ok.1, fun o ho => ⟨e.some (ok.2 o ho).1, (ok.2 o ho).2⟩⟩
  | cc c k vs => exact ⟨ok.1, ok.2.1, fun o ho => (ok.2.2 o ho).imp fun _ h => e _ _ h⟩
  | pbc c k ts => exact ⟨ok.1, fun o ho => (ok.2 o ho).imp fun _ h => h.imp fun _ h => e _ _ h⟩

/-- the next positive id, without wrap-around -/
def nxt (id : Nat) : Nat := if id % 2 = 0 then id + 1 else id + 2

theorem nextPosId_eq {s : Fac} (h : s.id + 2 < 2 ^ 32) : nextPosId s = nxt s.id := by
  unfold nextPosId nxt
  split <;> rw [Nat.mod_eq_of_lt] <;> omega

/-- Adding a positive node under a fresh id. -/
theorem Core.addPos {N : Nodes} {id : Nat} (c : Core N id) {n : Node} (hp : n.isNeg = false)
    (hok : NodeOk N ⟨n.sort, nxt id⟩ n) (hfresh : ∀ h, N h ≠ some n) :
    Core (upd N ⟨n.sort, nxt id⟩ (some n)) (nxt id) ∧ N ⟨n.sort, nxt id⟩ = none := by
  have hlo := c.lo
  have hodd := c.odd
  have nodd : nxt id % 2 = 1 := by unfold nxt; split <;> omega
  have ngt : id < nxt id := by unfold nxt; split <;> omega
  have hnone : ∀ s, N ⟨s, nxt id⟩ = none := by
    intro s
    cases hx : N ⟨s, nxt id⟩ with
    | none => rfl
    | some m =>
      have := (c.range hx).2
      simp only [posId] at this
      split at this <;> omega
  refine ⟨?_, hnone _⟩
  have e : Ext N (upd N ⟨n.sort, nxt id⟩ (some n)) := ext_upd (hnone _)
  have key : ∀ {h m}, upd N ⟨n.sort, nxt id⟩ (some n) h = some m →
      (h = ⟨n.sort, nxt id⟩ ∧ m = n) ∨ (h ≠ ⟨n.sort, nxt id⟩ ∧ N h = some m) := by
    intro h m hm
    by_cases he : h = ⟨n.sort, nxt id⟩
    · subst he; simp at hm; exact .inl ⟨rfl, hm.symm⟩
    · rw [upd_ne _ _ he] at hm; exact .inr ⟨he, hm⟩
  refine ⟨by omega, .inr nodd, ?_, ?_, ?_, ?_, ?_, ?_⟩
  · intro h m hm
    rcases key hm with ⟨rfl, rfl⟩ | ⟨_, hm⟩
    · rfl
    · exact c.sort hm
  · intro h m hm
    rcases key hm with ⟨rfl, rfl⟩ | ⟨_, hm⟩
    · simp only [posId]; constructor
      · omega
      · split <;> omega
    · have := c.range hm; omega
  · intro h m h' m' hm hm' hid
    rcases key hm with ⟨rfl, rfl⟩ | ⟨_, gm⟩ <;> rcases key hm' with ⟨rfl, rfl⟩ | ⟨_, gm'⟩
    · rfl
    · have := hnone h'.sort
      rw [show (⟨h'.sort, nxt id⟩ : H) = h' from by cases h'; simp_all] at this
      simp [this] at gm'
    · have := hnone h.sort
      rw [show (⟨h.sort, nxt id⟩ : H) = h from by cases h; simp_all] at this
      simp [this] at gm
    · exact c.uniq gm gm' hid
  · intro h m hm
    rcases key hm with ⟨rfl, rfl⟩ | ⟨_, hm⟩
    · simp [hp]; omega
    · exact c.par hm
  · intro h m hm
    rcases key hm with ⟨rfl, rfl⟩ | ⟨_, hm⟩
    · exact hok.ext e
    · exact (c.ok hm).ext e
  · intro h m h' hm hm'
    rcases key hm with ⟨rfl, rfl⟩ | ⟨_, gm⟩ <;> rcases key hm' with ⟨rfl, h2⟩ | ⟨_, gm'⟩
    · rfl
    · exact absurd gm' (hfresh _)
    · subst h2; exact absurd gm (hfresh _)
    · exact c.inj gm gm'

/-- Adding the negative node below a positive one. -/
theorem Core.addNeg {N : Nodes} {id : Nat} (c : Core N id) {n : Node} {p : H} {pn : Node} (hp : n.isNeg = true)
    (hpn : N p = some pn) (hpodd : p.id % 2 = 1) (hps : n.sort = .lit ↔ p.sort = .lit)
    (hok : NodeOk N ⟨n.sort, p.id - 1⟩ n) (hfresh : ∀ h, N h ≠ some n)
    (hnone : N ⟨n.sort, p.id - 1⟩ = none) :
    Core (upd N ⟨n.sort, p.id - 1⟩ (some n)) id := by
  have hr := c.range hpn
  have hlo := c.lo
  have hpos : posId p.id = p.id := by simp [posId]; omega
  rw [hpos] at hr
  have hnone' : ∀ s, N ⟨s, p.id - 1⟩ = none := by
    intro s
    cases hx : N ⟨s, p.id - 1⟩ with
    | none => rfl
    | some m =>
      exfalso
      have hneg := (c.par hx).1 (by show (p.id - 1) % 2 = 0; omega)
      have hs := c.sort hx
      have ho := c.ok hx
      cases m with
      | lit nm ph =>
        cases ph with
        | true => simp [Node.isNeg] at hneg
        | false =>
          simp only [NodeOk] at ho
          have := c.uniq ho hpn (by show p.id - 1 + 1 = p.id; omega)
          have h2 : n.sort = .lit := hps.2 (by rw [← this])
          simp only [Node.sort] at hs
          rw [h2, hs] at hnone
          simp [hnone] at hx
      | not o =>
        simp only [NodeOk] at ho
        obtain ⟨on, hon⟩ := Option.isSome_iff_exists.1 ho.2.1
        have := c.uniq hon hpn (by omega)
        subst this
        have h2 : n.sort ≠ .lit := fun h => ho.2.2.1 (hps.1 h)
        have h3 : n.sort = .not := by
          cases n <;> simp_all [Node.isNeg, Node.sort]
        simp only [Node.sort] at hs
        rw [h3, hs] at hnone
        simp [hnone] at hx
      | _ => simp [Node.isNeg] at hneg
  have e : Ext N (upd N ⟨n.sort, p.id - 1⟩ (some n)) := ext_upd hnone
  have key : ∀ {h m}, upd N ⟨n.sort, p.id - 1⟩ (some n) h = some m →
      (h = ⟨n.sort, p.id - 1⟩ ∧ m = n) ∨ (h ≠ ⟨n.sort, p.id - 1⟩ ∧ N h = some m) := by
    intro h m hm
    by_cases he : h = ⟨n.sort, p.id - 1⟩
    · subst he; simp at hm; exact .inl ⟨rfl, hm.symm⟩
    · rw [upd_ne _ _ he] at hm; exact .inr ⟨he, hm⟩
  refine ⟨c.lo, c.odd, ?_, ?_, ?_, ?_, ?_, ?_⟩
  · intro h m hm
    rcases key hm with ⟨rfl, rfl⟩ | ⟨_, hm⟩
    · rfl
    · exact c.sort hm
  · intro h m hm
    rcases key hm with ⟨rfl, rfl⟩ | ⟨_, hm⟩
    · have : (p.id - 1) % 2 = 0 := by omega
      simp only [posId, this, if_true]; omega
    · have := c.range hm; omega
  · intro h m h' m' hm hm' hid
    rcases key hm with ⟨rfl, rfl⟩ | ⟨_, gm⟩ <;> rcases key hm' with ⟨rfl, rfl⟩ | ⟨_, gm'⟩
    · rfl
    · have := hnone' h'.sort
      rw [show (⟨h'.sort, p.id - 1⟩ : H) = h' from by cases h'; simp_all] at this
      simp [this] at gm'
    · have := hnone' h.sort
      rw [show (⟨h.sort, p.id - 1⟩ : H) = h from by cases h; simp_all] at this
      simp [this] at gm
    · exact c.uniq gm gm' hid
  · intro h m hm
    rcases key hm with ⟨rfl, rfl⟩ | ⟨_, hm⟩
    · simp [hp]; omega
    · exact c.par hm
  · intro h m hm
    rcases key hm with ⟨rfl, rfl⟩ | ⟨_, hm⟩
    · exact hok.ext e
    · exact (c.ok hm).ext e
  · intro h m h' hm hm'
    rcases key hm with ⟨rfl, rfl⟩ | ⟨_, gm⟩ <;> rcases key hm' with ⟨rfl, h2⟩ | ⟨_, gm'⟩
    · rfl
    · exact absurd gm' (hfresh _)
    · subst h2; exact absurd gm (hfresh _)
    · exact c.inj gm gm'

/-! ### Caches -/

def CacheOk {A : Type} (C : A → Option H) (N : Nodes) (mk : A → Node) : Prop :=
  ∀ a x, C a = some x ↔ N x = some (mk a)
def BucketOk {A : Type} (C : UInt64 → List H) (N : Nodes) (mk : A → Node) (hf : A → UInt64) : Prop :=
  ∀ u x, x ∈ C u ↔ ∃ a, N x = some (mk a) ∧ hf a = u

theorem upd_some_iff {N : Nodes} {h : H} {n : Node} (hn : N h = none) (x : H) (m : Node) :
    upd N h (some n) x = some m ↔ (x = h ∧ m = n) ∨ N x = some m := by
  by_cases e : x = h
  · subst e; simp [hn, eq_comm]
  · simp [upd_ne _ _ e, e]

theorem CacheOk.frame {A : Type} {C : A → Option H} {N : Nodes} {mk : A → Node} (c : CacheOk C N mk)
    {h : H} {n : Node} (hn : N h = none) (hne : ∀ a, mk a ≠ n) : CacheOk C (upd N h (some n)) mk := by
  intro a x
  rw [upd_some_iff hn, c a x]
  simp [hne a]
theorem CacheOk.own {A : Type} [DecidableEq A] {C : A → Option H} {N : Nodes} {mk : A → Node} (c : CacheOk C N mk)
    {h : H} {a : A} (hn : N h = none) (hinj : ∀ a b, mk a = mk b → a = b) (hc : C a = none) :
    CacheOk (upd C a (some h)) (upd N h (some (mk a))) mk := by
  intro b x
  rw [upd_some_iff hn]
  by_cases e : b = a
  · subst e
    simp only [upd_self, Option.some.injEq, and_true]
    have := c b x
    constructor
    · intro e; exact .inl e.symm
    · rintro (e | e)
      · exact e.symm
      · rw [← c b x, hc] at e; simp at e
  · rw [upd_ne _ _ e, c b x]
    constructor
    · exact .inr
    · rintro (⟨_, e2⟩ | e2)
      · exact absurd (hinj _ _ e2) e
      · exact e2
theorem BucketOk.frame {A : Type} {C : UInt64 → List H} {N : Nodes} {mk : A → Node} {hf : A → UInt64}
    (c : BucketOk C N mk hf)
    {h : H} {n : Node} (hn : N h = none) (hne : ∀ a, mk a ≠ n) : BucketOk C (upd N h (some n)) mk hf := by
  intro u x
  rw [c u x]
  refine exists_congr fun a => ?_
  rw [upd_some_iff hn]; simp [hne a]
theorem BucketOk.own {A : Type} {C : UInt64 → List H} {N : Nodes} {mk : A → Node} {hf : A → UInt64}
    (c : BucketOk C N mk hf) {h : H} (a : A) (hn : N h = none) (hinj : ∀ a b, mk a = mk b → a = b) :
    BucketOk (upd C (hf a) (C (hf a) ++ [h])) (upd N h (some (mk a))) mk hf := by
  intro u x
  have : x ∈ upd C (hf a) (C (hf a) ++ [h]) u ↔ x ∈ C u ∨ (u = hf a ∧ x = h) := by
    by_cases e : u = hf a
    · subst e; simp
    · simp [upd_ne _ _ e, e]
  rw [this, c u x]
  constructor
  · rintro (⟨b, hb, h2⟩ | ⟨rfl, rfl⟩)
    · exact ⟨b, (upd_some_iff hn _ _).2 (.inr hb), h2⟩
    · exact ⟨a, by simp, rfl⟩
  · rintro ⟨b, hb, h2⟩
    rcases (upd_some_iff hn _ _).1 hb with ⟨rfl, h3⟩ | h3
    · exact .inr ⟨by rw [← h2, hinj _ _ h3], rfl⟩
    · exact .inl ⟨b, h3, h2⟩

/-- The representation invariant of the factory. -/
structure Inv (s : Fac) : Prop where
  hi : s.id < 2 ^ 28
  core : Core s.nodes s.id
  pos : CacheOk s.posLit s.nodes (fun nm => .lit nm true)
  neg : CacheOk s.negLit s.nodes (fun nm => .lit nm false)
  notc : CacheOk s.notC s.nodes .not
  implc : CacheOk s.implC s.nodes (fun p => .impl p.1 p.2)
  equivc : CacheOk s.equivC s.nodes (fun p => .equiv p.1 p.2)
  andc : BucketOk s.andC s.nodes .and hashOperands
  orc : BucketOk s.orC s.nodes .or hashOperands
  ccc : BucketOk s.ccC s.nodes (fun p : Cmp × Int × List H => .cc p.1 p.2.1 p.2.2)
    (fun p => hashPbc p.1 p.2.1 p.2.2 (p.2.2.map fun _ => 1))
  pbcc : BucketOk s.pbcC s.nodes (fun p : Cmp × Int × List (Int × H) => .pbc p.1 p.2.1 p.2.2)
    (fun p => hashPbc p.1 p.2.1 (p.2.2.map (·.2)) (p.2.2.map (·.1)))

theorem inv_init (c : Bool) : Inv (init c) := by
  refine ⟨by simp [init], ⟨by simp [init], by simp [init], ?_, ?_, ?_, ?_, ?_, ?_⟩, ?_, ?_, ?_, ?_, ?_, ?_, ?_, ?_, ?_⟩
  all_goals first | (intro a x; simp [init]) | (simp [init])

/-- What every constructor guarantees about the new state. -/
structure Good (s s' : Fac) : Prop where
  inv : Inv s'
  ext : Ext s.nodes s'.nodes
  cons : s'.conserve = s.conserve
  mono : s.id ≤ s'.id

theorem Good.refl {s : Fac} (h : Inv s) : Good s s := ⟨h, Ext.refl _, rfl, Nat.le_refl _⟩
theorem Good.trans {s s' s'' : Fac} (h : Good s s') (h' : Good s' s'') : Good s s'' :=
  ⟨h'.inv, h.ext.trans h'.ext, h'.cons.trans h.cons, Nat.le_trans h.mono h'.mono⟩

theorem nxt_gt (id : Nat) : id < nxt id := by unfold nxt; split <;> omega
theorem nxt_lt {s : Fac} (h : s.id < 2 ^ 28) (h2 : nextPosId s < 2 ^ 28) : nxt s.id < 2 ^ 28 := by
  rw [nextPosId_eq (by omega)] at h2; exact h2
theorem enc_lt {s : FSort} {id : Nat} (h : id < 2 ^ 28) : enc s id = ⟨s, id⟩ := by
  simp only [enc]; rw [Nat.mod_eq_of_lt h]

theorem mkVar_good {s : Fac} (i : Inv s) (nm : String) (hb : (mkVar s nm).1.id < 2 ^ 28) :
    Good s (mkVar s nm).1 ∧ (mkVar s nm).1.nodes (mkVar s nm).2 = some (.lit nm true) := by
  have hhi := i.hi
  unfold mkVar at *
  split
  · rename_i v e
    exact ⟨.refl i, (i.pos nm v).1 e⟩
  · rename_i e
    simp only [e] at hb
    simp only at hb ⊢
    rw [nextPosId_eq (by omega)] at hb ⊢
    rw [enc_lt hb]
    have hfresh : ∀ h, s.nodes h ≠ some (.lit nm true) := by
      intro h hh
      rw [← i.pos nm h, e] at hh; simp at hh
    obtain ⟨c, hn⟩ := i.core.addPos (n := .lit nm true) rfl trivial hfresh
    simp only [Node.sort] at c hn
    refine ⟨⟨⟨hb, c, ?_, ?_, ?_, ?_, ?_, ?_, ?_, ?_, ?_⟩, ext_upd hn, rfl, Nat.le_of_lt (nxt_gt _)⟩, by simp⟩
    · exact i.pos.own hn (by simp) e
    · exact i.neg.frame hn (by simp)
    · exact i.notc.frame hn (by simp)
    · exact i.implc.frame hn (by simp)
    · exact i.equivc.frame hn (by simp)
    · exact i.andc.frame hn (by simp)
    · exact i.orc.frame hn (by simp)
    · exact i.ccc.frame hn (by simp)
    · exact i.pbcc.frame hn (by simp)

theorem V.not_lt {N : Nodes} {id : Nat} (c : Core N id) {h : H} (hv : V N h) : posId h.id ≤ id := by
  have := c.lo
  rcases hv with rfl | rfl | hv
  · simp [posId, cFalse]; omega
  · simp [posId, cTrue]; omega
  · obtain ⟨n, hn⟩ := Option.isSome_iff_exists.1 hv
    exact (c.range hn).2

theorem mkLit_good {s : Fac} (i : Inv s) (nm : String) (p : Bool) (hb : (mkLit s nm p).1.id < 2 ^ 28) :
    Good s (mkLit s nm p).1 ∧ (mkLit s nm p).1.nodes (mkLit s nm p).2 = some (.lit nm p) := by
  have hv := mkVar_good i nm
  unfold mkLit at *
  revert hv hb
  generalize mkVar s nm = r
  obtain ⟨s1, v⟩ := r
  intro hb hv
  simp only at hb hv ⊢
  cases p with
  | true => simp only [if_true] at hb ⊢; exact hv hb
  | false =>
    simp only [Bool.false_eq_true, if_false] at hb ⊢
    cases e : s1.negLit nm with
    | some l =>
      simp only [e] at hb ⊢
      have hv := hv hb
      exact ⟨hv.1, (hv.1.inv.neg nm l).1 e⟩
    | none =>
      simp only [e] at hb ⊢
      have hb1 : s1.id < 2 ^ 28 := by
        by_cases h : negId v.id > s1.id
        · simp only [h, if_true] at hb; omega
        · simp only [h, if_false] at hb; exact hb
      obtain ⟨g, hvn⟩ := hv hb1
      have i1 := g.inv
      have hodd : v.id % 2 = 1 := by
        have := i1.core.par hvn
        simp [Node.isNeg] at this; exact this
      have hneg : negId v.id = v.id - 1 := negId_odd hodd
      have hr := (i1.core.range hvn)
      have hp : posId v.id = v.id := by simp [posId]; omega
      rw [hp] at hr
      have hng : ¬ (negId v.id > s1.id) := by omega
      simp only [hng, if_false] at hb ⊢
      rw [hneg, enc_lt (by omega)]
      have hfresh : ∀ h, s1.nodes h ≠ some (.lit nm false) := by
        intro h hh
        rw [← i1.neg nm h, e] at hh; simp at hh
      have hvs : v.sort = .lit := (i1.core.sort hvn).symm
      have hvv : v = ⟨.lit, v.id - 1 + 1⟩ := by
        cases v; simp_all; omega
      have hok : NodeOk s1.nodes ⟨.lit, v.id - 1⟩ (.lit nm false) := by
        show s1.nodes ⟨.lit, v.id - 1 + 1⟩ = _
        rw [← hvv]; exact hvn
      have hn : s1.nodes ⟨.lit, v.id - 1⟩ = none := by
        cases hx : s1.nodes ⟨.lit, v.id - 1⟩ with
        | none => rfl
        | some m =>
          exfalso
          have hs := i1.core.sort hx
          have hpar := (i1.core.par hx).1 (by show (v.id - 1) % 2 = 0; omega)
          cases m with
          | lit nm' ph =>
            cases ph with
            | true => simp [Node.isNeg] at hpar
            | false =>
              have := i1.core.ok hx
              simp only [NodeOk] at this
              rw [← hvv, hvn] at this
              simp at this
              exact hfresh _ (this ▸ hx)
          | _ => simp [Node.sort] at hs
      have c := i1.core.addNeg (n := .lit nm false) (p := v) rfl hvn hodd (by simp [Node.sort, hvs]) hok hfresh hn
      simp only [Node.sort] at c
      refine ⟨g.trans ⟨⟨hb1, c, ?_, ?_, ?_, ?_, ?_, ?_, ?_, ?_, ?_⟩, ext_upd hn, rfl, Nat.le_refl _⟩, by simp⟩
      · exact i1.pos.frame hn (by simp)
      · exact i1.neg.own hn (by simp) e
      · exact i1.notc.frame hn (by simp)
      · exact i1.implc.frame hn (by simp)
      · exact i1.equivc.frame hn (by simp)
      · exact i1.andc.frame hn (by simp)
      · exact i1.orc.frame hn (by simp)
      · exact i1.ccc.frame hn (by simp)
      · exact i1.pbcc.frame hn (by simp)

/-- `h` is the handle of the negation of `o`. -/
inductive IsNot (N : Nodes) (o h : H) : Prop
  | fls : o = cFalse → h = cTrue → IsNot N o h
  | tru : o = cTrue → h = cFalse → IsNot N o h
  | lit (nm : String) (p : Bool) : N o = some (.lit nm p) → N h = some (.lit nm (!p)) → IsNot N o h
  | down : N o = some (.not h) → (N h).isSome → IsNot N o h
  | up : N h = some (.not o) → (N o).isSome → IsNot N o h

theorem mkNot_good {s : Fac} (i : Inv s) {o : H} (ho : V s.nodes o) (hb : (mkNot s o).1.id < 2 ^ 28) :
    Good s (mkNot s o).1 ∧ IsNot (mkNot s o).1.nodes o (mkNot s o).2 := by
  unfold mkNot at *
  split at hb
  · rename_i h; simp only [h, if_true]; exact ⟨.refl i, .fls rfl rfl⟩
  rename_i hf; simp only [hf, if_false]
  split at hb
  · rename_i h; simp only [h, if_true]; exact ⟨.refl i, .tru rfl rfl⟩
  rename_i ht; simp only [ht, if_false]
  have hsome : (s.nodes o).isSome := by rcases ho with h | h | h <;> simp_all
  obtain ⟨n, hn⟩ := Option.isSome_iff_exists.1 hsome
  have hsort := i.core.sort hn
  split at hb
  · rename_i h; simp only [h, if_true]
    rw [h] at hsort
    cases n with
    | lit nm p =>
      rw [hn] at hb ⊢; simp only at hb ⊢
      obtain ⟨g, h2⟩ := mkLit_good i nm (!p) hb
      exact ⟨g, .lit nm p (g.ext _ _ hn) h2⟩
    | _ => simp [Node.sort] at hsort
  rename_i hl; simp only [hl, if_false]
  split at hb
  · rename_i h; simp only [h, if_true]
    rw [h] at hsort
    cases n with
    | not op =>
      rw [hn]
      have := i.core.ok hn
      exact ⟨.refl i, .down hn this.2.1⟩
    | _ => simp [Node.sort] at hsort
  rename_i hnt; simp only [hnt, if_false]
  cases e : s.notC o with
  | some x =>
    exact ⟨.refl i, .up ((i.notc o x).1 e) hsome⟩
  | none =>
    simp only [e] at hb
    simp only
    have hnn : n.isNeg = false := by
      cases n with
      | lit nm p => simp [Node.sort] at hsort; exact absurd hsort.symm hl
      | not op => simp [Node.sort] at hsort; exact absurd hsort.symm hnt
      | _ => rfl
    have hodd : o.id % 2 = 1 := by
      have := i.core.par hn
      simp [hnn] at this; exact this
    have hneg : negId o.id = o.id - 1 := negId_odd hodd
    have hr := (i.core.range hn)
    have hp : posId o.id = o.id := by simp [posId]; omega
    rw [hp] at hr
    have hhi := i.hi
    have hng : ¬ (negId o.id > s.id) := by omega
    simp only [hng, if_false] at hb ⊢
    rw [hneg, enc_lt (by omega)]
    have hfresh : ∀ h, s.nodes h ≠ some (.not o) := by
      intro h hh
      rw [← i.notc o h, e] at hh; simp at hh
    have hok : NodeOk s.nodes ⟨.not, o.id - 1⟩ (.not o) := by
      refine ⟨?_, hsome, hl, hnt⟩
      show o.id - 1 + 1 = o.id; omega
    have hnone : s.nodes ⟨.not, o.id - 1⟩ = none := by
      cases hx : s.nodes ⟨.not, o.id - 1⟩ with
      | none => rfl
      | some m =>
        exfalso
        have hs := i.core.sort hx
        cases m with
        | not o' =>
          have h1 := i.core.ok hx
          simp only [NodeOk] at h1
          obtain ⟨n', hn'⟩ := Option.isSome_iff_exists.1 h1.2.1
          have := i.core.uniq hn' hn (by omega)
          subst this
          exact hfresh _ hx
        | _ => simp [Node.sort] at hs
    have c := i.core.addNeg (n := .not o) (p := o) rfl hn hodd (by simp [Node.sort, hl]) hok hfresh hnone
    simp only [Node.sort] at c
    refine ⟨⟨⟨hhi, c, ?_, ?_, ?_, ?_, ?_, ?_, ?_, ?_, ?_⟩, ext_upd hnone, rfl, Nat.le_refl _⟩, .up (by simp) ((ext_upd hnone).some hsome)⟩
    · exact i.pos.frame hnone (by simp)
    · exact i.neg.frame hnone (by simp)
    · exact i.notc.own hnone (by simp) e
    · exact i.implc.frame hnone (by simp)
    · exact i.equivc.frame hnone (by simp)
    · exact i.andc.frame hnone (by simp)
    · exact i.orc.frame hnone (by simp)
    · exact i.ccc.frame hnone (by simp)
    · exact i.pbcc.frame hnone (by simp)

theorem nextPosId_bound {s : Fac} (i : Inv s) : nextPosId s = nxt s.id := nextPosId_eq (by have := i.hi; omega)

/-- Post-condition of `Implication`. -/
def ImplPost (cons : Bool) (N : Nodes) (l r h : H) : Prop :=
  if l = cFalse ∨ r = cTrue then h = cTrue
  else if l = cTrue then h = r
  else if r = cFalse ∨ l.id = negId r.id then IsNot N l h
  else if !cons ∧ l = r then h = cTrue
  else N h = some (.impl l r)

theorem V.isSome {N : Nodes} {h : H} (hv : V N h) (hf : h ≠ cFalse) (ht : h ≠ cTrue) : (N h).isSome := by
  rcases hv with h | h | h
  · exact absurd h hf
  · exact absurd h ht
  · exact h
theorem Core.sort_ne {N : Nodes} {id : Nat} (c : Core N id) {h : H} (hs : (N h).isSome) :
    h.sort ≠ .fls ∧ h.sort ≠ .tru := by
  obtain ⟨n, hn⟩ := Option.isSome_iff_exists.1 hs
  rw [← c.sort hn]
  cases n <;> simp [Node.sort]

theorem mkImpl_good {s : Fac} (i : Inv s) {l r : H} (hl : V s.nodes l) (hr : V s.nodes r)
    (hb : (mkImpl s l r).1.id < 2 ^ 28) :
    Good s (mkImpl s l r).1 ∧ ImplPost s.conserve (mkImpl s l r).1.nodes l r (mkImpl s l r).2 := by
  unfold mkImpl ImplPost at *
  by_cases h1 : l = cFalse ∨ r = cTrue
  · rw [if_pos h1, if_pos h1]; exact ⟨.refl i, rfl⟩
  simp only [h1, if_false] at hb ⊢
  by_cases h2 : l = cTrue
  · rw [if_pos h2, if_pos h2]; exact ⟨.refl i, rfl⟩
  simp only [h2, if_false] at hb ⊢
  by_cases h3 : r = cFalse ∨ l.id = negId r.id
  · simp only [h3, if_true] at hb ⊢; exact mkNot_good i hl hb
  simp only [h3, if_false] at hb ⊢
  by_cases h4 : (!s.conserve) = true ∧ l = r
  · rw [if_pos h4, if_pos h4]; exact ⟨.refl i, rfl⟩
  rw [if_neg h4] at hb
  rw [if_neg h4, if_neg h4]
  cases e : s.implC (l, r) with
  | some h => exact ⟨.refl i, (i.implc (l, r) h).1 e⟩
  | none =>
    simp only [e] at hb ⊢
    rw [nextPosId_bound i] at hb ⊢
    rw [enc_lt hb]
    have hfresh : ∀ h, s.nodes h ≠ some (.impl l r) := by
      intro h hh
      rw [← i.implc (l, r) h, e] at hh; simp at hh
    have hls := hl.isSome (fun h => h1 (.inl h)) h2
    have hrs := hr.isSome (fun h => h3 (.inl h)) (fun h => h1 (.inr h))
    have a1 := V.not_lt i.core hl
    have a2 := V.not_lt i.core hr
    have a3 := nxt_gt s.id
    obtain ⟨c, hn⟩ := i.core.addPos (n := .impl l r) rfl
      ⟨hl, hr, Nat.lt_of_le_of_lt a1 a3, Nat.lt_of_le_of_lt a2 a3, (i.core.sort_ne hls).1, (i.core.sort_ne hls).2, i.core.sort_ne hrs⟩ hfresh
    simp only [Node.sort] at c hn
    refine ⟨⟨⟨hb, c, ?_, ?_, ?_, ?_, ?_, ?_, ?_, ?_, ?_⟩, ext_upd hn, rfl, Nat.le_of_lt (nxt_gt _)⟩, by simp⟩
    · exact i.pos.frame hn (by simp)
    · exact i.neg.frame hn (by simp)
    · exact i.notc.frame hn (by simp)
    · exact i.implc.own (a := (l, r)) hn (by simp) e
    · exact i.equivc.frame hn (by simp)
    · exact i.andc.frame hn (by simp)
    · exact i.orc.frame hn (by simp)
    · exact i.ccc.frame hn (by simp)
    · exact i.pbcc.frame hn (by simp)

/-- Post-condition of `Equivalence`. -/
def EquivPost (cons : Bool) (N : Nodes) (l r h : H) : Prop :=
  if l = cTrue then h = r
  else if r = cTrue then h = l
  else if l = cFalse then IsNot N r h
  else if r = cFalse then IsNot N l h
  else if !cons ∧ l = r then h = cTrue
  else if !cons ∧ l.id = negId r.id then h = cFalse
  else N h = some (.equiv l r)

theorem mkEquiv_good {s : Fac} (i : Inv s) {l r : H} (hl : V s.nodes l) (hr : V s.nodes r)
    (hb : (mkEquiv s l r).1.id < 2 ^ 28) :
    Good s (mkEquiv s l r).1 ∧ EquivPost s.conserve (mkEquiv s l r).1.nodes l r (mkEquiv s l r).2 := by
  unfold mkEquiv EquivPost at *
  by_cases h1 : l = cTrue
  · rw [if_pos h1, if_pos h1]; exact ⟨.refl i, rfl⟩
  simp only [h1, if_false] at hb ⊢
  by_cases h2 : r = cTrue
  · rw [if_pos h2, if_pos h2]; exact ⟨.refl i, rfl⟩
  simp only [h2, if_false] at hb ⊢
  by_cases h3 : l = cFalse
  · simp only [h3, if_true] at hb ⊢; exact mkNot_good i hr hb
  simp only [h3, if_false] at hb ⊢
  by_cases h3' : r = cFalse
  · simp only [h3', if_true] at hb ⊢; exact mkNot_good i hl hb
  simp only [h3', if_false] at hb ⊢
  by_cases h4 : (!s.conserve) = true ∧ l = r
  · rw [if_pos h4, if_pos h4]; exact ⟨.refl i, rfl⟩
  rw [if_neg h4] at hb
  rw [if_neg h4, if_neg h4]
  by_cases h5 : (!s.conserve) = true ∧ l.id = negId r.id
  · rw [if_pos h5, if_pos h5]; exact ⟨.refl i, rfl⟩
  rw [if_neg h5] at hb
  rw [if_neg h5, if_neg h5]
  cases e : s.equivC (l, r) with
  | some h => exact ⟨.refl i, (i.equivc (l, r) h).1 e⟩
  | none =>
    simp only [e] at hb ⊢
    rw [nextPosId_bound i] at hb ⊢
    rw [enc_lt hb]
    have hfresh : ∀ h, s.nodes h ≠ some (.equiv l r) := by
      intro h hh
      rw [← i.equivc (l, r) h, e] at hh; simp at hh
    have hls := hl.isSome h3 h1
    have hrs := hr.isSome h3' h2
    have a1 := V.not_lt i.core hl
    have a2 := V.not_lt i.core hr
    have a3 := nxt_gt s.id
    obtain ⟨c, hn⟩ := i.core.addPos (n := .equiv l r) rfl
      ⟨hl, hr, Nat.lt_of_le_of_lt a1 a3, Nat.lt_of_le_of_lt a2 a3, (i.core.sort_ne hls).1, (i.core.sort_ne hls).2, i.core.sort_ne hrs⟩ hfresh
    simp only [Node.sort] at c hn
    refine ⟨⟨⟨hb, c, ?_, ?_, ?_, ?_, ?_, ?_, ?_, ?_, ?_⟩, ext_upd hn, rfl, Nat.le_of_lt (nxt_gt _)⟩, by simp⟩
    · exact i.pos.frame hn (by simp)
    · exact i.neg.frame hn (by simp)
    · exact i.notc.frame hn (by simp)
    · exact i.implc.frame hn (by simp)
    · exact i.equivc.own (a := (l, r)) hn (by simp) e
    · exact i.andc.frame hn (by simp)
    · exact i.orc.frame hn (by simp)
    · exact i.ccc.frame hn (by simp)
    · exact i.pbcc.frame hn (by simp)

/-! ### And / Or -/

theorem findAnd_some {s : Fac} (i : Inv s) {ops : List H} {h : H}
    (e : findAnd s (hashOperands ops) ops = some h) : s.nodes h = some (.and ops) := by
  have h1 := List.mem_of_find?_eq_some e
  have h2 := List.find?_some e
  obtain ⟨ops', ho, _⟩ := (i.andc _ _).1 h1
  simp only [andOps, ho, decide_eq_true_eq] at h2
  rw [ho, h2]
theorem findAnd_none {s : Fac} (i : Inv s) {ops : List H}
    (e : findAnd s (hashOperands ops) ops = none) (h : H) : s.nodes h ≠ some (.and ops) := by
  intro hh
  have := List.find?_eq_none.1 e h ((i.andc _ _).2 ⟨ops, hh, rfl⟩)
  simp [andOps, hh] at this
theorem findOr_some {s : Fac} (i : Inv s) {ops : List H} {h : H}
    (e : findOr s (hashOperands ops) ops = some h) : s.nodes h = some (.or ops) := by
  have h1 := List.mem_of_find?_eq_some e
  have h2 := List.find?_some e
  obtain ⟨ops', ho, _⟩ := (i.orc _ _).1 h1
  simp only [orOps, ho, decide_eq_true_eq] at h2
  rw [ho, h2]
theorem findOr_none {s : Fac} (i : Inv s) {ops : List H}
    (e : findOr s (hashOperands ops) ops = none) (h : H) : s.nodes h ≠ some (.or ops) := by
  intro hh
  have := List.find?_eq_none.1 e h ((i.orc _ _).2 ⟨ops, hh, rfl⟩)
  simp [orOps, hh] at this

theorem newAnd_good {s : Fac} (i : Inv s) {ops : List H} {b : Bool} (hlen : 2 ≤ ops.length)
    (hops : ∀ o ∈ ops, (s.nodes o).isSome ∧ o.sort ≠ .and) (hf : ∀ h, s.nodes h ≠ some (.and ops))
    (hb : (newAnd s ops b).1.id < 2 ^ 28) :
    Good s (newAnd s ops b).1 ∧ (newAnd s ops b).1.nodes (newAnd s ops b).2 = some (.and ops) := by
  have a3 := nxt_gt s.id
  have hb' : nxt s.id < 2 ^ 28 := by
    rw [← nextPosId_bound i]
    unfold newAnd setCNFCaches at hb
    cases b <;> simpa using hb
  have hnp := nextPosId_bound i
  obtain ⟨c, hn⟩ := i.core.addPos (n := .and ops) rfl
    ⟨hlen, fun o ho => ⟨(hops o ho).1, Nat.lt_of_le_of_lt (V.not_lt i.core (.inr (.inr (hops o ho).1))) a3, (hops o ho).2⟩⟩ hf
  simp only [Node.sort] at c hn
  unfold newAnd setCNFCaches
  simp only [hnp, enc_lt hb']
  cases b <;>
  · simp only [if_true, Bool.false_eq_true, if_false]
    refine ⟨⟨⟨hb', c, ?_, ?_, ?_, ?_, ?_, ?_, ?_, ?_, ?_⟩, ext_upd hn, rfl, Nat.le_of_lt (nxt_gt _)⟩, by simp⟩
    · exact i.pos.frame hn (by simp)
    · exact i.neg.frame hn (by simp)
    · exact i.notc.frame hn (by simp)
    · exact i.implc.frame hn (by simp)
    · exact i.equivc.frame hn (by simp)
    · exact i.andc.own ops hn (by simp)
    · exact i.orc.frame hn (by simp)
    · exact i.ccc.frame hn (by simp)
    · exact i.pbcc.frame hn (by simp)

theorem newOr_good {s : Fac} (i : Inv s) {ops : List H} {b : Bool} (hlen : 2 ≤ ops.length)
    (hops : ∀ o ∈ ops, (s.nodes o).isSome ∧ o.sort ≠ .or) (hf : ∀ h, s.nodes h ≠ some (.or ops))
    (hb : (newOr s ops b).1.id < 2 ^ 28) :
    Good s (newOr s ops b).1 ∧ (newOr s ops b).1.nodes (newOr s ops b).2 = some (.or ops) := by
  have a3 := nxt_gt s.id
  have hb' : nxt s.id < 2 ^ 28 := by
    rw [← nextPosId_bound i]
    unfold newOr setCNFCaches at hb
    cases b <;> simpa using hb
  have hnp := nextPosId_bound i
  obtain ⟨c, hn⟩ := i.core.addPos (n := .or ops) rfl
    ⟨hlen, fun o ho => ⟨(hops o ho).1, Nat.lt_of_le_of_lt (V.not_lt i.core (.inr (.inr (hops o ho).1))) a3, (hops o ho).2⟩⟩ hf
  simp only [Node.sort] at c hn
  unfold newOr setCNFCaches
  simp only [hnp, enc_lt hb']
  cases b <;>
  · simp only [if_true, Bool.false_eq_true, if_false]
    refine ⟨⟨⟨hb', c, ?_, ?_, ?_, ?_, ?_, ?_, ?_, ?_, ?_⟩, ext_upd hn, rfl, Nat.le_of_lt (nxt_gt _)⟩, by simp⟩
    · exact i.pos.frame hn (by simp)
    · exact i.neg.frame hn (by simp)
    · exact i.notc.frame hn (by simp)
    · exact i.implc.frame hn (by simp)
    · exact i.equivc.frame hn (by simp)
    · exact i.andc.frame hn (by simp)
    · exact i.orc.own ops hn (by simp)
    · exact i.ccc.frame hn (by simp)
    · exact i.pbcc.frame hn (by simp)

theorem addFormulaAnd_some {s : Fac} {a a' : Acc} {f : H} (e : addFormulaAnd s a f = some a') :
    (f = cTrue ∧ a' = a) ∨
    (f ≠ cTrue ∧ f ≠ cFalse ∧ containsComplement s a.ids f = false ∧
      ((f.id ∈ a.ids ∧ a'.ops = a.ops ∧ a'.ids = a.ids) ∨
       (f.id ∉ a.ids ∧ a'.ops = a.ops ++ [f] ∧ a'.ids = f.id :: a.ids)) ∧
      a'.cnf = (a.cnf && isCNFClause s f)) := by
  unfold addFormulaAnd at e
  split at e
  · simp at e; rename_i h; exact .inl ⟨h, e.symm⟩
  rename_i ht
  split at e
  · simp at e
  rename_i hf
  have hf : f ≠ cFalse ∧ containsComplement s a.ids f = false := by
    refine ⟨fun h => hf (.inl h), ?_⟩
    cases h : containsComplement s a.ids f
    · rfl
    · exact absurd (.inr h) hf
  refine .inr ⟨ht, hf.1, hf.2, ?_⟩
  by_cases h1 : f.id ∈ a.ids <;> simp only [h1, if_true, if_false] at e <;> split at e <;>
    rename_i h2 <;> simp at e <;> subst e <;> simp [h1, h2]

theorem addFormulaAnd_mem {s : Fac} {a a' : Acc} {f : H} (e : addFormulaAnd s a f = some a') :
    ∀ o ∈ a'.ops, o ∈ a.ops ∨ (o = f ∧ f ≠ cTrue ∧ f ≠ cFalse) := by
  rcases addFormulaAnd_some e with ⟨_, rfl⟩ | ⟨h1, h2, _, h3, _⟩
  · intro o ho; exact .inl ho
  · intro o ho
    rcases h3 with ⟨_, h, _⟩ | ⟨_, h, _⟩
    · rw [h] at ho; exact .inl ho
    · rw [h] at ho
      rcases List.mem_append.1 ho with h | h
      · exact .inl h
      · simp at h; exact .inr ⟨h, h1, h2⟩

theorem addFormulaOr_some {s : Fac} {a a' : Acc} {f : H} (e : addFormulaOr s a f = some a') :
    (f = cFalse ∧ a' = a) ∨
    (f ≠ cFalse ∧ f ≠ cTrue ∧ containsComplement s a.ids f = false ∧
      ((f.id ∈ a.ids ∧ a'.ops = a.ops ∧ a'.ids = a.ids) ∨
       (f.id ∉ a.ids ∧ a'.ops = a.ops ++ [f] ∧ a'.ids = f.id :: a.ids)) ∧
      a'.cnf = (a.cnf && decide (f.sort = .lit))) := by
  unfold addFormulaOr at e
  split at e
  · simp at e; rename_i h; exact .inl ⟨h, e.symm⟩
  rename_i ht
  split at e
  · simp at e
  rename_i hf
  have hf : f ≠ cTrue ∧ containsComplement s a.ids f = false := by
    refine ⟨fun h => hf (.inl h), ?_⟩
    cases h : containsComplement s a.ids f
    · rfl
    · exact absurd (.inr h) hf
  refine .inr ⟨ht, hf.1, hf.2, ?_⟩
  by_cases h1 : f.id ∈ a.ids <;> simp only [h1, if_true, if_false] at e <;> split at e <;>
    rename_i h2 <;> simp at e <;> subst e <;> simp [h1, h2]

theorem addFormulaOr_mem {s : Fac} {a a' : Acc} {f : H} (e : addFormulaOr s a f = some a') :
    ∀ o ∈ a'.ops, o ∈ a.ops ∨ (o = f ∧ f ≠ cFalse ∧ f ≠ cTrue) := by
  rcases addFormulaOr_some e with ⟨_, rfl⟩ | ⟨h1, h2, _, h3, _⟩
  · intro o ho; exact .inl ho
  · intro o ho
    rcases h3 with ⟨_, h, _⟩ | ⟨_, h, _⟩
    · rw [h] at ho; exact .inl ho
    · rw [h] at ho
      rcases List.mem_append.1 ho with h | h
      · exact .inl h
      · simp at h; exact .inr ⟨h, h1, h2⟩

theorem condenseAnd_mem {s : Fac} (i : Inv s) {ops : List H} (hops : ∀ o ∈ ops, V s.nodes o) {a : Acc}
    (e : condenseAnd s ops = some a) : ∀ o ∈ a.ops, (s.nodes o).isSome ∧ o.sort ≠ .and := by
  unfold condenseAnd at e
  refine foldOpt_inv (P := fun a => ∀ o ∈ a.ops, (s.nodes o).isSome ∧ o.sort ≠ .and) ?_ (by simp) e
  intro a f a' hf h2 e
  split at e
  · rename_i hs
    refine foldOpt_inv (P := fun a => ∀ o ∈ a.ops, (s.nodes o).isSome ∧ o.sort ≠ .and) ?_ h2 e
    intro a g a' hg h2 e o ho
    rcases addFormulaAnd_mem e o ho with h | ⟨rfl, h, h'⟩
    · exact h2 o h
    · unfold andOps at hg
      split at hg
      · rename_i ops' hn
        have := i.core.ok hn
        exact ⟨(this.2 o hg).1, (this.2 o hg).2.2⟩
      · simp at hg
  · rename_i hs
    intro o ho
    rcases addFormulaAnd_mem e o ho with h | ⟨rfl, h, h'⟩
    · exact h2 o h
    · exact ⟨(hops o hf).isSome h' h, hs⟩
theorem condenseOr_mem {s : Fac} (i : Inv s) {ops : List H} (hops : ∀ o ∈ ops, V s.nodes o) {a : Acc}
    (e : condenseOr s ops = some a) : ∀ o ∈ a.ops, (s.nodes o).isSome ∧ o.sort ≠ .or := by
  unfold condenseOr at e
  refine foldOpt_inv (P := fun a => ∀ o ∈ a.ops, (s.nodes o).isSome ∧ o.sort ≠ .or) ?_ (by simp) e
  intro a f a' hf h2 e
  split at e
  · rename_i hs
    refine foldOpt_inv (P := fun a => ∀ o ∈ a.ops, (s.nodes o).isSome ∧ o.sort ≠ .or) ?_ h2 e
    intro a g a' hg h2 e o ho
    rcases addFormulaOr_mem e o ho with h | ⟨rfl, h, h'⟩
    · exact h2 o h
    · unfold orOps at hg
      split at hg
      · rename_i ops' hn
        have := i.core.ok hn
        exact ⟨(this.2 o hg).1, (this.2 o hg).2.2⟩
      · simp at hg
  · rename_i hs
    intro o ho
    rcases addFormulaOr_mem e o ho with h | ⟨rfl, h, h'⟩
    · exact h2 o h
    · exact ⟨(hops o hf).isSome h h', hs⟩

/-- Post-condition of `And`; `s` is the state before the call, `N` the node table after it. -/
def AndPost (s : Fac) (N : Nodes) (ops : List H) (h : H) : Prop :=
  s.nodes h = some (.and ops) ∨
  match condenseAnd s ops with
  | none => h = cFalse
  | some a => match a.ops with
    | [] => h = cTrue
    | [f] => h = f
    | _ => N h = some (.and a.ops)
/-- Post-condition of `Or`. -/
def OrPost (s : Fac) (N : Nodes) (ops : List H) (h : H) : Prop :=
  s.nodes h = some (.or ops) ∨
  match condenseOr s ops with
  | none => h = cTrue
  | some a => match a.ops with
    | [] => h = cFalse
    | [f] => h = f
    | _ => N h = some (.or a.ops)

theorem mkAnd_good {s : Fac} (i : Inv s) {ops : List H} (hops : ∀ o ∈ ops, V s.nodes o)
    (hb : (mkAnd s ops).1.id < 2 ^ 28) :
    Good s (mkAnd s ops).1 ∧ AndPost s (mkAnd s ops).1.nodes ops (mkAnd s ops).2 := by
  unfold mkAnd AndPost at *
  cases e1 : findAnd s (hashOperands ops) ops with
  | some h => exact ⟨.refl i, .inl (findAnd_some i e1)⟩
  | none =>
    simp only [e1] at hb ⊢
    cases e2 : condenseAnd s ops with
    | none => exact ⟨.refl i, .inr rfl⟩
    | some a =>
      simp only [e2] at hb ⊢
      have hm := condenseAnd_mem i hops e2
      match e3 : a.ops, hm, hb with
      | [], _, _ => exact ⟨.refl i, .inr rfl⟩
      | [f], _, _ => exact ⟨.refl i, .inr rfl⟩
      | f :: g :: r, hm, hb =>
        simp only at hb ⊢
        cases e4 : findAnd s (hashOperands (f :: g :: r)) (f :: g :: r) with
        | some h => exact ⟨.refl i, .inr (findAnd_some i e4)⟩
        | none =>
          simp only [e4] at hb ⊢
          obtain ⟨h1, h2⟩ := newAnd_good i (by simp) hm (findAnd_none i e4) hb
          exact ⟨h1, .inr h2⟩
theorem mkOr_good {s : Fac} (i : Inv s) {ops : List H} (hops : ∀ o ∈ ops, V s.nodes o)
    (hb : (mkOr s ops).1.id < 2 ^ 28) :
    Good s (mkOr s ops).1 ∧ OrPost s (mkOr s ops).1.nodes ops (mkOr s ops).2 := by
  unfold mkOr OrPost at *
  cases e1 : findOr s (hashOperands ops) ops with
  | some h => exact ⟨.refl i, .inl (findOr_some i e1)⟩
  | none =>
    simp only [e1] at hb ⊢
    cases e2 : condenseOr s ops with
    | none => exact ⟨.refl i, .inr rfl⟩
    | some a =>
      simp only [e2] at hb ⊢
      have hm := condenseOr_mem i hops e2
      match e3 : a.ops, hm, hb with
      | [], _, _ => exact ⟨.refl i, .inr rfl⟩
      | [f], _, _ => exact ⟨.refl i, .inr rfl⟩
      | f :: g :: r, hm, hb =>
        simp only at hb ⊢
        cases e4 : findOr s (hashOperands (f :: g :: r)) (f :: g :: r) with
        | some h => exact ⟨.refl i, .inr (findOr_some i e4)⟩
        | none =>
          simp only [e4] at hb ⊢
          obtain ⟨h1, h2⟩ := newOr_good i (by simp) hm (findOr_none i e4) hb
          exact ⟨h1, .inr h2⟩

/-- Post-condition of `Minterm` -/
def MintermPost (N : Nodes) (ops : List H) (h : H) : Prop :=
  match ops with
  | [] => h = cTrue
  | [f] => h = f
  | ops => N h = some (.and ops)
/-- Post-condition of `Clause` -/
def ClausePost (N : Nodes) (ops : List H) (h : H) : Prop :=
  match ops with
  | [] => h = cFalse
  | [f] => h = f
  | ops => N h = some (.or ops)

theorem mkMinterm_good {s : Fac} (i : Inv s) {ops : List H} (hops : ∀ o ∈ ops, ∃ n p, s.nodes o = some (.lit n p))
    (hb : (mkMinterm s ops).1.id < 2 ^ 28) :
    Good s (mkMinterm s ops).1 ∧ MintermPost (mkMinterm s ops).1.nodes ops (mkMinterm s ops).2 := by
  unfold mkMinterm MintermPost at *
  cases e1 : findAnd s (hashOperands ops) ops with
  | some h =>
    have h1 := findAnd_some i e1
    have h2 := i.core.ok h1
    refine ⟨.refl i, ?_⟩
    match ops, h1, h2 with
    | [], _, h2 => simp [NodeOk] at h2
    | [f], _, h2 => simp [NodeOk] at h2
    | f :: g :: r, h1, _ => exact h1
  | none =>
    simp only [e1] at hb ⊢
    match ops, e1, hops, hb with
    | [], _, _, _ => exact ⟨.refl i, rfl⟩
    | [f], _, _, _ => exact ⟨.refl i, rfl⟩
    | f :: g :: r, e1, hops, hb =>
      refine newAnd_good i (by simp) ?_ (findAnd_none i e1) hb
      intro o ho
      obtain ⟨n, p, h⟩ := hops o ho
      exact ⟨by rw [h]; rfl, by rw [← i.core.sort h]; simp [Node.sort]⟩
theorem mkClause_good {s : Fac} (i : Inv s) {ops : List H} (hops : ∀ o ∈ ops, ∃ n p, s.nodes o = some (.lit n p))
    (hb : (mkClause s ops).1.id < 2 ^ 28) :
    Good s (mkClause s ops).1 ∧ ClausePost (mkClause s ops).1.nodes ops (mkClause s ops).2 := by
  unfold mkClause ClausePost at *
  cases e1 : findOr s (hashOperands ops) ops with
  | some h =>
    have h1 := findOr_some i e1
    have h2 := i.core.ok h1
    refine ⟨.refl i, ?_⟩
    match ops, h1, h2 with
    | [], _, h2 => simp [NodeOk] at h2
    | [f], _, h2 => simp [NodeOk] at h2
    | f :: g :: r, h1, _ => exact h1
  | none =>
    simp only [e1] at hb ⊢
    match ops, e1, hops, hb with
    | [], _, _, _ => exact ⟨.refl i, rfl⟩
    | [f], _, _, _ => exact ⟨.refl i, rfl⟩
    | f :: g :: r, e1, hops, hb =>
      refine newOr_good i (by simp) ?_ (findOr_none i e1) hb
      intro o ho
      obtain ⟨n, p, h⟩ := hops o ho
      exact ⟨by rw [h]; rfl, by rw [← i.core.sort h]; simp [Node.sort]⟩

/-! ### Linear constraints -/

def CCPost (N : Nodes) (c : Cmp) (k : Int) (vs : List H) (h : H) : Prop :=
  if vs = [] then h = constant (evalTrivialPB c k) else N h = some (.cc c k vs)
def PBCPost (N : Nodes) (c : Cmp) (k : Int) (ts : List (Int × H)) (h : H) : Prop :=
  if ts = [] then h = constant (evalTrivialPB c k)
  else if isCC c k ts then N h = some (.cc c k (ts.map (·.2)))
  else N h = some (.pbc c k ts)

theorem constructCC_good {s : Fac} (i : Inv s) {c : Cmp} {k : Int} {vs : List H} (hk : 0 ≤ k)
    (hvs : ∀ o ∈ vs, ∃ n, s.nodes o = some (.lit n true)) (hb : (constructCC s c k vs).1.id < 2 ^ 28) :
    Good s (constructCC s c k vs).1 ∧ CCPost (constructCC s c k vs).1.nodes c k vs (constructCC s c k vs).2 := by
  unfold constructCC CCPost at *
  cases vs with
  | nil => exact ⟨.refl i, by simp⟩
  | cons v vs =>
    simp only [List.isEmpty_cons, Bool.false_eq_true, if_false, reduceCtorEq] at hb ⊢
    generalize hh : hashPbc c k (v :: vs) ((v :: vs).map fun _ => 1) = hash at *
    cases e : findCC s hash c k (v :: vs) with
    | some h =>
      have h2 := List.find?_some e
      exact ⟨.refl i, by simpa using h2⟩
    | none =>
      simp only [e] at hb ⊢
      rw [nextPosId_bound i] at hb ⊢
      rw [enc_lt hb]
      have hfresh : ∀ h, s.nodes h ≠ some (.cc c k (v :: vs)) := by
        intro h hh'
        have := List.find?_eq_none.1 e h ((i.ccc _ _).2 ⟨(c, k, v :: vs), hh', hh⟩)
        simp [hh'] at this
      obtain ⟨cc, hn⟩ := i.core.addPos (n := .cc c k (v :: vs)) rfl ⟨by simp, hk, hvs⟩ hfresh
      simp only [Node.sort] at cc hn
      refine ⟨⟨⟨hb, cc, ?_, ?_, ?_, ?_, ?_, ?_, ?_, ?_, ?_⟩, ext_upd hn, rfl, Nat.le_of_lt (nxt_gt _)⟩, by simp⟩
      · exact i.pos.frame hn (by simp)
      · exact i.neg.frame hn (by simp)
      · exact i.notc.frame hn (by simp)
      · exact i.implc.frame hn (by simp)
      · exact i.equivc.frame hn (by simp)
      · exact i.andc.frame hn (by simp)
      · exact i.orc.frame hn (by simp)
      · have := i.ccc.own (c, k, v :: vs) hn (by simp)
        simp only [hh] at this
        exact this
      · exact i.pbcc.frame hn (by simp)

theorem constructPBC_good {s : Fac} (i : Inv s) {c : Cmp} {k : Int} {vs : List (Int × H)} (hne : vs ≠ [])
    (hvs : ∀ o ∈ vs, ∃ n p, s.nodes o.2 = some (.lit n p)) (hb : (constructPBC s c k vs).1.id < 2 ^ 28) :
    Good s (constructPBC s c k vs).1 ∧ (constructPBC s c k vs).1.nodes (constructPBC s c k vs).2 = some (.pbc c k vs) := by
  unfold constructPBC at *
  cases vs with
  | nil => simp at hne
  | cons v vs =>
    simp only [List.isEmpty_cons, Bool.false_eq_true, if_false] at hb ⊢
    generalize hh : hashPbc c k ((v :: vs).map (·.2)) ((v :: vs).map (·.1)) = hash at *
    cases e : findPBC s hash c k (v :: vs) with
    | some h =>
      have h2 := List.find?_some e
      exact ⟨.refl i, by simpa using h2⟩
    | none =>
      simp only [e] at hb ⊢
      rw [nextPosId_bound i] at hb ⊢
      rw [enc_lt hb]
      have hfresh : ∀ h, s.nodes h ≠ some (.pbc c k (v :: vs)) := by
        intro h hh'
        have := List.find?_eq_none.1 e h ((i.pbcc _ _).2 ⟨(c, k, v :: vs), hh', hh⟩)
        simp [hh'] at this
      obtain ⟨cc, hn⟩ := i.core.addPos (n := .pbc c k (v :: vs)) rfl ⟨by simp, hvs⟩ hfresh
      simp only [Node.sort] at cc hn
      refine ⟨⟨⟨hb, cc, ?_, ?_, ?_, ?_, ?_, ?_, ?_, ?_, ?_⟩, ext_upd hn, rfl, Nat.le_of_lt (nxt_gt _)⟩, by simp⟩
      · exact i.pos.frame hn (by simp)
      · exact i.neg.frame hn (by simp)
      · exact i.notc.frame hn (by simp)
      · exact i.implc.frame hn (by simp)
      · exact i.equivc.frame hn (by simp)
      · exact i.andc.frame hn (by simp)
      · exact i.orc.frame hn (by simp)
      · exact i.ccc.frame hn (by simp)
      · have := i.pbcc.own (c, k, v :: vs) hn (by simp)
        simp only [hh] at this
        exact this

theorem mkPBC_good {s : Fac} (i : Inv s) {c : Cmp} {k : Int} {vs : List (Int × H)}
    (hvs : ∀ o ∈ vs, ∃ n p, s.nodes o.2 = some (.lit n p)) (hb : (mkPBC s c k vs).1.id < 2 ^ 28) :
    Good s (mkPBC s c k vs).1 ∧ PBCPost (mkPBC s c k vs).1.nodes c k vs (mkPBC s c k vs).2 := by
  unfold mkPBC PBCPost at *
  by_cases h1 : vs = []
  · subst h1; exact ⟨.refl i, by simp⟩
  have h1' : vs.isEmpty = false := by cases vs <;> simp_all
  simp only [h1', Bool.false_eq_true, if_false, h1] at hb ⊢
  by_cases h2 : isCC c k vs = true
  · simp only [h2, if_true] at hb ⊢
    have hk : 0 ≤ k := by
      unfold isCC at h2
      cases c <;> simp at h2 <;> omega
    have hpos : ∀ o ∈ vs.map (·.2), ∃ n, s.nodes o = some (.lit n true) := by
      intro o ho
      obtain ⟨t, ht, rfl⟩ := List.mem_map.1 ho
      obtain ⟨n, p, hn⟩ := hvs t ht
      refine ⟨n, ?_⟩
      have : t.2.isPos = true := by
        unfold isCC at h2
        simp only [Bool.and_eq_true, List.all_eq_true] at h2
        exact h2.1.1 t ht
      have hp := i.core.par hn
      cases p with
      | true => exact hn
      | false => simp [Node.isNeg] at hp; simp [H.isPos] at this; omega
    have := constructCC_good i hk hpos hb
    unfold CCPost at this
    rw [if_neg (by simpa using h1)] at this
    exact this
  · simp only [h2] at hb ⊢
    exact constructPBC_good i h1 hvs hb

theorem mkAuxVar_good {s : Fac} (i : Inv s) (n : String) (hb : (mkAuxVar s n).1.id < 2 ^ 28) :
    Good s (mkAuxVar s n).1 ∧ (mkAuxVar s n).1.nodes (mkAuxVar s n).2 = some (.lit (n ++ toString (s.aux n)) true) := by
  unfold mkAuxVar at *
  have hv := mkVar_good i (n ++ toString (s.aux n))
  revert hv hb
  generalize mkVar s (n ++ toString (s.aux n)) = r
  intro hb hv
  obtain ⟨g, h⟩ := hv hb
  exact ⟨⟨⟨g.inv.hi, g.inv.core, g.inv.pos, g.inv.neg, g.inv.notc, g.inv.implc, g.inv.equivc, g.inv.andc, g.inv.orc,
    g.inv.ccc, g.inv.pbcc⟩, g.ext, g.cons, g.mono⟩, h⟩

theorem step_good {s : Fac} (i : Inv s) {op : Op} (ok : op.Ok s) (hb : (step s op).1.id < 2 ^ 28) :
    Good s (step s op).1 := by
  cases op with
  | var n => exact (mkVar_good i n hb).1
  | lit n p => exact (mkLit_good i n p hb).1
  | not o => exact (mkNot_good i ok hb).1
  | impl l r => exact (mkImpl_good i ok.1 ok.2 hb).1
  | equiv l r => exact (mkEquiv_good i ok.1 ok.2 hb).1
  | and ops => exact (mkAnd_good i ok hb).1
  | or ops => exact (mkOr_good i ok hb).1
  | minterm ops => exact (mkMinterm_good i ok hb).1
  | clause ops => exact (mkClause_good i ok hb).1
  | cc c k vs => exact (constructCC_good i (by omega) ok hb).1
  | pbc c k ts => exact (mkPBC_good i ok hb).1
  | auxVar n => exact (mkAuxVar_good i n hb).1

theorem Reach.inv {c : Bool} {s : Fac} (r : Reach c s) : Inv s := by
  induction r with
  | init => exact inv_init c
  | step _ ok hb ih => exact (step_good ih ok hb).inv
theorem Reach.cons {c : Bool} {s : Fac} (r : Reach c s) : s.conserve = c := by
  induction r with
  | init => rfl
  | step r ok hb ih => rw [(step_good r.inv ok hb).cons, ih]
theorem Later.good {s s' : Fac} (i : Inv s) (l : Later s s') : Good s s' := by
  induction l with
  | refl => exact .refl i
  | step _ ok hb ih => exact ih.trans (step_good ih.inv ok hb)

end Verif.Factory
