import Verif.Factory.Lemmas
/-
The formula tree a handle stands for (`Den`), its totality / determinism / monotonicity, and the truth value of handles.
-/
namespace Verif.Factory
open Verif

mutual
/-- `Den N f h`: reading the node tables from handle `h` downwards gives the tree `f`. -/
def Den (N : Nodes) : Fm String → H → Prop
  | .fls, h => h = cFalse
  | .tru, h => h = cTrue
  | .lit l, h => N h = some (.lit l.var l.pos)
  | .not f, h => ∃ o, N h = some (.not o) ∧ Den N f o
  | .and fs, h => ∃ os, N h = some (.and os) ∧ DenL N fs os
  | .or fs, h => ∃ os, N h = some (.or os) ∧ DenL N fs os
  | .impl f g, h => ∃ l r, N h = some (.impl l r) ∧ Den N f l ∧ Den N g r
  | .equiv f g, h => ∃ l r, N h = some (.equiv l r) ∧ Den N f l ∧ Den N g r
  | .cc c k xs, h => ∃ os, N h = some (.cc c k os) ∧ os.map N = xs.map (fun x => some (.lit x true))
  | .pbc c k ts, h => ∃ os, N h = some (.pbc c k os) ∧
      os.map (fun o => (o.1, N o.2)) = ts.map (fun t => (t.1, some (.lit t.2.var t.2.pos)))
def DenL (N : Nodes) : List (Fm String) → List H → Prop
  | [], [] => True
  | f :: fs, h :: hs => Den N f h ∧ DenL N fs hs
  | _, _ => False
end

theorem DenL_cons {N : Nodes} {f : Fm String} {fs : List (Fm String)} {hs : List H} :
    DenL N (f :: fs) hs ↔ ∃ h hs', hs = h :: hs' ∧ Den N f h ∧ DenL N fs hs' := by
  cases hs with
  | nil => simp [DenL]
  | cons h hs =>
    simp only [DenL]
    constructor
    · intro d; exact ⟨h, hs, rfl, d⟩
    · rintro ⟨h, hs, e, d⟩; cases e; exact d
theorem DenL_nil {N : Nodes} {hs : List H} : DenL N [] hs ↔ hs = [] := by
  cases hs <;> simp [DenL]

theorem map_some_ext {N N' : Nodes} (e : Ext N N') : ∀ {os : List H} {ms : List Node},
    os.map N = ms.map some → os.map N' = ms.map some
  | [], [], _ => rfl
  | [], _ :: _, h => by simp at h
  | _ :: _, [], h => by simp at h
  | o :: os, m :: ms, h => by
    simp only [List.map_cons, List.cons.injEq] at h ⊢
    exact ⟨e _ _ h.1, map_some_ext e h.2⟩
theorem map_pair_ext {N N' : Nodes} (e : Ext N N') : ∀ {os : List (Int × H)} {ts : List (Int × Lit String)},
    os.map (fun o => (o.1, N o.2)) = ts.map (fun t => (t.1, some (.lit t.2.var t.2.pos))) →
    os.map (fun o => (o.1, N' o.2)) = ts.map (fun t => (t.1, some (.lit t.2.var t.2.pos)))
  | [], [], _ => rfl
  | [], _ :: _, h => by simp at h
  | _ :: _, [], h => by simp at h
  | o :: os, m :: ms, h => by
    simp only [List.map_cons, List.cons.injEq, Prod.mk.injEq] at h ⊢
    exact ⟨⟨h.1.1, e _ _ h.1.2⟩, map_pair_ext e h.2⟩

theorem DenL.imp {N N' : Nodes} : ∀ {fs : List (Fm String)} {hs : List H},
    (∀ f ∈ fs, ∀ h, Den N f h → Den N' f h) → DenL N fs hs → DenL N' fs hs
  | [], hs, _, d => by rw [DenL_nil] at *; exact d
  | f :: fs, hs, H, d => by
    rw [DenL_cons] at *
    obtain ⟨h, hs', rfl, d1, d2⟩ := d
    exact ⟨h, hs', rfl, H f (by simp) h d1, DenL.imp (fun g hg => H g (by simp [hg])) d2⟩

/-- Denotations survive every extension of the node tables. -/
theorem Den.ext {N N' : Nodes} (e : Ext N N') (f : Fm String) : ∀ h, Den N f h → Den N' f h := by
  induction f using Fm.ind with
  | hf => intro h d; simpa [Den] using d
  | ht => intro h d; simpa [Den] using d
  | hl l => intro h d; simp only [Den] at *; exact e _ _ d
  | hn f ih => intro h d; simp only [Den] at *; obtain ⟨o, h1, h2⟩ := d; exact ⟨o, e _ _ h1, ih _ h2⟩
  | ha fs ih => intro h d; simp only [Den] at *; obtain ⟨o, h1, h2⟩ := d; exact ⟨o, e _ _ h1, h2.imp ih⟩
  | ho fs ih => intro h d; simp only [Den] at *; obtain ⟨o, h1, h2⟩ := d; exact ⟨o, e _ _ h1, h2.imp ih⟩
  | hi f g h1 h2 =>
    intro h d; simp only [Den] at *; obtain ⟨l, r, h, hl, hr⟩ := d; exact ⟨l, r, e _ _ h, h1 _ hl, h2 _ hr⟩
  | he f g h1 h2 =>
    intro h d; simp only [Den] at *; obtain ⟨l, r, h, hl, hr⟩ := d; exact ⟨l, r, e _ _ h, h1 _ hl, h2 _ hr⟩
  | hc c k xs =>
    intro h d; simp only [Den] at *
    obtain ⟨os, h, hl⟩ := d
    refine ⟨os, e _ _ h, ?_⟩
    have := map_some_ext e (ms := xs.map (fun x => Node.lit x true)) (by rw [hl, List.map_map]; rfl)
    rw [this, List.map_map]; rfl
  | hp c k ts =>
    intro h d; simp only [Den] at *
    obtain ⟨os, h, hl⟩ := d
    exact ⟨os, e _ _ h, map_pair_ext e hl⟩

/-- Two handles with the same denotation are equal (hash consing). -/
theorem Den.inj {N : Nodes} {id : Nat} (c : Core N id) (f : Fm String) : ∀ h h', Den N f h → Den N f h' → h = h' := by
  have aux : ∀ fs : List (Fm String), (∀ f ∈ fs, ∀ h h', Den N f h → Den N f h' → h = h') →
      ∀ hs hs', DenL N fs hs → DenL N fs hs' → hs = hs' := by
    intro fs
    induction fs with
    | nil => intro _ hs hs' d d'; rw [DenL_nil] at *; rw [d, d']
    | cons f fs ih =>
      intro H hs hs' d d'
      rw [DenL_cons] at *
      obtain ⟨h, t, rfl, d1, d2⟩ := d
      obtain ⟨h', t', rfl, d1', d2'⟩ := d'
      rw [H f (by simp) _ _ d1 d1', ih (fun g hg => H g (by simp [hg])) _ _ d2 d2']
  induction f using Fm.ind with
  | hf => intro h h' d d'; simp only [Den] at *; rw [d, d']
  | ht => intro h h' d d'; simp only [Den] at *; rw [d, d']
  | hl l => intro h h' d d'; simp only [Den] at *; exact c.inj d d'
  | hn f ih =>
    intro h h' d d'; simp only [Den] at *
    obtain ⟨o, h1, h2⟩ := d; obtain ⟨o', h1', h2'⟩ := d'
    have := ih _ _ h2 h2'; subst this; exact c.inj h1 h1'
  | ha fs ih =>
    intro h h' d d'; simp only [Den] at *
    obtain ⟨o, h1, h2⟩ := d; obtain ⟨o', h1', h2'⟩ := d'
    have := aux fs ih _ _ h2 h2'; subst this; exact c.inj h1 h1'
  | ho fs ih =>
    intro h h' d d'; simp only [Den] at *
    obtain ⟨o, h1, h2⟩ := d; obtain ⟨o', h1', h2'⟩ := d'
    have := aux fs ih _ _ h2 h2'; subst this; exact c.inj h1 h1'
  | hi f g ih1 ih2 =>
    intro h h' d d'; simp only [Den] at *
    obtain ⟨o, p, h1, h2, h3⟩ := d; obtain ⟨o', p', h1', h2', h3'⟩ := d'
    have := ih1 _ _ h2 h2'; subst this
    have := ih2 _ _ h3 h3'; subst this; exact c.inj h1 h1'
  | he f g ih1 ih2 =>
    intro h h' d d'; simp only [Den] at *
    obtain ⟨o, p, h1, h2, h3⟩ := d; obtain ⟨o', p', h1', h2', h3'⟩ := d'
    have := ih1 _ _ h2 h2'; subst this
    have := ih2 _ _ h3 h3'; subst this; exact c.inj h1 h1'
  | hc cm k xs =>
    intro h h' d d'; simp only [Den] at *
    obtain ⟨os, h1, h2⟩ := d; obtain ⟨os', h1', h2'⟩ := d'
    have : os = os' := by
      clear h1 h1'
      induction xs generalizing os os' with
      | nil => simp at h2 h2'; rw [h2, h2']
      | cons x xs ih =>
        match os, os', h2, h2' with
        | o :: os, o' :: os', h2, h2' =>
          simp only [List.map_cons, List.cons.injEq] at h2 h2'
          rw [c.inj h2.1 h2'.1, ih _ h2.2 _ h2'.2]
    subst this; exact c.inj h1 h1'
  | hp cm k xs =>
    intro h h' d d'; simp only [Den] at *
    obtain ⟨os, h1, h2⟩ := d; obtain ⟨os', h1', h2'⟩ := d'
    have : os = os' := by
      clear h1 h1'
      induction xs generalizing os os' with
      | nil => simp at h2 h2'; rw [h2, h2']
      | cons x xs ih =>
        match os, os', h2, h2' with
        | o :: os, o' :: os', h2, h2' =>
          simp only [List.map_cons, List.cons.injEq, Prod.mk.injEq] at h2 h2'
          rw [ih _ h2.2 _ h2'.2]
          congr 1
          exact Prod.ext (h2.1.1.trans h2'.1.1.symm) (c.inj h2.1.2 h2'.1.2)
    subst this; exact c.inj h1 h1'

/-- A handle has at most one denotation. -/
theorem Den.det {N : Nodes} (hN : ∀ h n, N h = some n → h ≠ cFalse ∧ h ≠ cTrue) (f : Fm String) :
    ∀ g h, Den N f h → Den N g h → f = g := by
  have aux : ∀ fs : List (Fm String), (∀ f ∈ fs, ∀ g h, Den N f h → Den N g h → f = g) →
      ∀ gs hs, DenL N fs hs → DenL N gs hs → fs = gs := by
    intro fs
    induction fs with
    | nil =>
      intro _ gs hs d d'; rw [DenL_nil] at d; subst d
      cases gs with
      | nil => rfl
      | cons => simp [DenL] at d'
    | cons f fs ih =>
      intro H gs hs d d'
      rw [DenL_cons] at d
      obtain ⟨h, t, rfl, d1, d2⟩ := d
      cases gs with
      | nil => simp [DenL] at d'
      | cons g gs =>
        simp only [DenL] at d'
        rw [H f (by simp) _ _ d1 d'.1, ih (fun g hg => H g (by simp [hg])) _ _ d2 d'.2]
  have hF : ∀ n, N cFalse ≠ some n := fun n h => (hN _ _ h).1 rfl
  have hT : ∀ n, N cTrue ≠ some n := fun n h => (hN _ _ h).2 rfl
  have hFT : cFalse ≠ cTrue := by simp [cFalse, cTrue]
  induction f using Fm.ind with
  | hf => intro g h d d'; simp only [Den] at d; subst d; cases g <;> simp_all [Den]
  | ht => intro g h d d'; simp only [Den] at d; subst d; cases g <;> simp_all [Den]
  | hl l =>
    intro g h d d'; simp only [Den] at d
    cases g with
    | lit m => simp only [Den, d, Option.some.injEq, Node.lit.injEq] at d'; cases l; cases m; simp_all
    | fls => simp only [Den] at d'; subst d'; simp_all
    | tru => simp only [Den] at d'; subst d'; simp_all
    | _ => simp [Den, d] at d'
  | hn f ih =>
    intro g h d d'; simp only [Den] at d
    obtain ⟨o, h1, h2⟩ := d
    cases g with
    | not g => 
      simp only [Den, h1, Option.some.injEq, Node.not.injEq] at d'
      obtain ⟨o', rfl, h2'⟩ := d'
      rw [ih _ _ h2 h2']
    | fls => simp only [Den] at d'; subst d'; simp_all
    | tru => simp only [Den] at d'; subst d'; simp_all
    | _ => simp [Den, h1] at d'
  | ha fs ih =>
    intro g h d d'; simp only [Den] at d
    obtain ⟨o, h1, h2⟩ := d
    cases g with
    | and g => 
      simp only [Den, h1, Option.some.injEq, Node.and.injEq] at d'
      obtain ⟨o', rfl, h2'⟩ := d'
      rw [aux fs ih _ _ h2 h2']
    | fls => simp only [Den] at d'; subst d'; simp_all
    | tru => simp only [Den] at d'; subst d'; simp_all
    | _ => simp [Den, h1] at d'
  | ho fs ih =>
    intro g h d d'; simp only [Den] at d
    obtain ⟨o, h1, h2⟩ := d
    cases g with
    | or g => 
      simp only [Den, h1, Option.some.injEq, Node.or.injEq] at d'
      obtain ⟨o', rfl, h2'⟩ := d'
      rw [aux fs ih _ _ h2 h2']
    | fls => simp only [Den] at d'; subst d'; simp_all
    | tru => simp only [Den] at d'; subst d'; simp_all
    | _ => simp [Den, h1] at d'
  | hi f f' ih1 ih2 =>
    intro g h d d'; simp only [Den] at d
    obtain ⟨l, r, h1, h2, h3⟩ := d
    cases g with
    | impl g g' => 
      simp only [Den, h1, Option.some.injEq, Node.impl.injEq] at d'
      obtain ⟨l', r', ⟨rfl, rfl⟩, h2', h3'⟩ := d'
      rw [ih1 _ _ h2 h2', ih2 _ _ h3 h3']
    | fls => simp only [Den] at d'; subst d'; simp_all
    | tru => simp only [Den] at d'; subst d'; simp_all
    | _ => simp [Den, h1] at d'
  | he f f' ih1 ih2 =>
    intro g h d d'; simp only [Den] at d
    obtain ⟨l, r, h1, h2, h3⟩ := d
    cases g with
    | equiv g g' => 
      simp only [Den, h1, Option.some.injEq, Node.equiv.injEq] at d'
      obtain ⟨l', r', ⟨rfl, rfl⟩, h2', h3'⟩ := d'
      rw [ih1 _ _ h2 h2', ih2 _ _ h3 h3']
    | fls => simp only [Den] at d'; subst d'; simp_all
    | tru => simp only [Den] at d'; subst d'; simp_all
    | _ => simp [Den, h1] at d'
  | hc cm k xs =>
    intro g h d d'; simp only [Den] at d
    obtain ⟨os, h1, h2⟩ := d
    cases g with
    | cc cm' k' xs' => 
      simp only [Den, h1, Option.some.injEq, Node.cc.injEq] at d'
      obtain ⟨o', ⟨rfl, rfl, rfl⟩, h2'⟩ := d'
      rw [h2] at h2'
      have : xs = xs' := by
        have := List.map_inj_right (l := xs) (l' := xs') (f := fun x => some (Node.lit x true)) (by simp)
        exact this.1 h2'
      rw [this]
    | fls => simp only [Den] at d'; subst d'; simp_all
    | tru => simp only [Den] at d'; subst d'; simp_all
    | _ => simp [Den, h1] at d'
  | hp cm k xs =>
    intro g h d d'; simp only [Den] at d
    obtain ⟨os, h1, h2⟩ := d
    cases g with
    | pbc cm' k' xs' => 
      simp only [Den, h1, Option.some.injEq, Node.pbc.injEq] at d'
      obtain ⟨o', ⟨rfl, rfl, rfl⟩, h2'⟩ := d'
      rw [h2] at h2'
      have : xs = xs' := by
        have := List.map_inj_right (l := xs) (l' := xs')
          (f := fun t : Int × Lit String => (t.1, some (Node.lit t.2.var t.2.pos)))
          (by rintro ⟨a, l⟩ ⟨a', l'⟩ h; cases l; cases l'; simp at h; simp [h])
        exact this.1 h2'
      rw [this]
    | fls => simp only [Den] at d'; subst d'; simp_all
    | tru => simp only [Den] at d'; subst d'; simp_all
    | _ => simp [Den, h1] at d'

theorem Core.ne_const {N : Nodes} {id : Nat} (c : Core N id) : ∀ h n, N h = some n → h ≠ cFalse ∧ h ≠ cTrue := by
  intro h n hn
  have := c.range hn
  constructor <;> rintro rfl <;> simp [cFalse, cTrue] at this

/-- rank: operands have smaller rank -/
def rank (h : H) : Nat := 2 * posId h.id + (if h.id % 2 = 0 then 1 else 0)

theorem rank_lt {o h : H} (hh : h.id % 2 = 1) (e : posId o.id < h.id) : rank o < rank h := by
  unfold rank
  have : posId h.id = h.id := by simp [posId]; omega
  rw [this]
  split <;> split <;> omega

theorem exists_DenL {N : Nodes} : ∀ {os : List H}, (∀ o ∈ os, ∃ f, Den N f o) → ∃ fs, DenL N fs os
  | [], _ => ⟨[], trivial⟩
  | o :: os, h => by
    obtain ⟨f, hf⟩ := h o (by simp)
    obtain ⟨fs, hfs⟩ := exists_DenL (os := os) (fun p hp => h p (by simp [hp]))
    exact ⟨f :: fs, hf, hfs⟩

theorem Den.total {N : Nodes} {id : Nat} (c : Core N id) : ∀ h, V N h → ∃ f, Den N f h := by
  intro h
  induction hr : rank h using Nat.strongRecOn generalizing h with
  | ind r ih =>
    subst hr
    rintro (rfl | rfl | hv)
    · exact ⟨.fls, by simp [Den]⟩
    · exact ⟨.tru, by simp [Den]⟩
    obtain ⟨n, hn⟩ := Option.isSome_iff_exists.1 hv
    have hok := c.ok hn
    have hpar := c.par hn
    cases n with
    | lit nm p => exact ⟨.lit ⟨nm, p⟩, by simp [Den, hn]⟩
    | not o =>
      simp only [NodeOk] at hok
      have hev : h.id % 2 = 0 := hpar.2 rfl
      obtain ⟨f, hf⟩ := ih (rank o) (by
        unfold rank posId; rw [if_pos hev, if_pos hev, if_neg (by omega), if_neg (by omega)]; omega) o rfl (.inr (.inr hok.2.1))
      exact ⟨.not f, by simp only [Den]; exact ⟨o, hn, hf⟩⟩
    | impl l r =>
      simp only [NodeOk] at hok
      have hodd : h.id % 2 = 1 := by simp [Node.isNeg] at hpar; omega
      obtain ⟨f, hf⟩ := ih (rank l) (rank_lt hodd hok.2.2.1) l rfl hok.1
      obtain ⟨g, hg⟩ := ih (rank r) (rank_lt hodd hok.2.2.2.1) r rfl hok.2.1
      exact ⟨.impl f g, by simp only [Den]; exact ⟨l, r, hn, hf, hg⟩⟩
    | equiv l r =>
      simp only [NodeOk] at hok
      have hodd : h.id % 2 = 1 := by simp [Node.isNeg] at hpar; omega
      obtain ⟨f, hf⟩ := ih (rank l) (rank_lt hodd hok.2.2.1) l rfl hok.1
      obtain ⟨g, hg⟩ := ih (rank r) (rank_lt hodd hok.2.2.2.1) r rfl hok.2.1
      exact ⟨.equiv f g, by simp only [Den]; exact ⟨l, r, hn, hf, hg⟩⟩
    | and ops =>
      simp only [NodeOk] at hok
      have hodd : h.id % 2 = 1 := by simp [Node.isNeg] at hpar; omega
      obtain ⟨fs, hfs⟩ := exists_DenL (N := N) (os := ops) (fun o ho =>
        ih (rank o) (rank_lt hodd (hok.2 o ho).2.1) o rfl (.inr (.inr (hok.2 o ho).1)))
      exact ⟨.and fs, by simp only [Den]; exact ⟨ops, hn, hfs⟩⟩
    | or ops =>
      simp only [NodeOk] at hok
      have hodd : h.id % 2 = 1 := by simp [Node.isNeg] at hpar; omega
      obtain ⟨fs, hfs⟩ := exists_DenL (N := N) (os := ops) (fun o ho =>
        ih (rank o) (rank_lt hodd (hok.2 o ho).2.1) o rfl (.inr (.inr (hok.2 o ho).1)))
      exact ⟨.or fs, by simp only [Den]; exact ⟨ops, hn, hfs⟩⟩
    | cc cm k vs =>
      simp only [NodeOk] at hok
      have : ∀ vs : List H, (∀ o ∈ vs, ∃ nm, N o = some (.lit nm true)) →
          ∃ xs : List String, vs.map N = xs.map (fun x => some (.lit x true)) := by
        intro vs
        induction vs with
        | nil => intro _; exact ⟨[], rfl⟩
        | cons v vs ih =>
          intro h
          obtain ⟨xs, hx⟩ := ih (fun o ho => h o (by simp [ho]))
          obtain ⟨nm, hnm⟩ := h v (by simp)
          exact ⟨nm :: xs, by simp [hx, hnm]⟩
      obtain ⟨xs, hx⟩ := this vs hok.2.2
      exact ⟨.cc cm k xs, by simp only [Den]; exact ⟨vs, hn, hx⟩⟩
    | pbc cm k vs =>
      simp only [NodeOk] at hok
      have : ∀ vs : List (Int × H), (∀ o ∈ vs, ∃ nm p, N o.2 = some (.lit nm p)) →
          ∃ xs : List (Int × Lit String), vs.map (fun o => (o.1, N o.2)) = xs.map (fun t => (t.1, some (.lit t.2.var t.2.pos))) := by
        intro vs
        induction vs with
        | nil => intro _; exact ⟨[], rfl⟩
        | cons v vs ih =>
          intro h
          obtain ⟨xs, hx⟩ := ih (fun o ho => h o (by simp [ho]))
          obtain ⟨nm, p, hnm⟩ := h v (by simp)
          exact ⟨(v.1, ⟨nm, p⟩) :: xs, by simp [hx, hnm]⟩
      obtain ⟨xs, hx⟩ := this vs hok.2
      exact ⟨.pbc cm k xs, by simp only [Den]; exact ⟨vs, hn, hx⟩⟩

theorem Den.valid {N : Nodes} {f : Fm String} {h : H} (d : Den N f h) : V N h := by
  cases f <;> simp only [Den] at d
  · exact .inl d
  · exact .inr (.inl d)
  · exact .inr (.inr (by rw [d]; rfl))
  all_goals
    first
    | (obtain ⟨_, h, _⟩ := d; exact .inr (.inr (by rw [h]; rfl)))
    | (obtain ⟨_, _, h, _⟩ := d; exact .inr (.inr (by rw [h]; rfl)))

/-! ### Truth values of handles -/

def sumH (e : H → Bool) : List (Int × H) → Int
  | [] => 0
  | (a, h) :: ts => (if e h then a else 0) + sumH e ts

/-- `e` is a valuation of the handles that respects all nodes, for the assignment `v`. -/
structure Cons (N : Nodes) (v : String → Bool) (e : H → Bool) : Prop where
  fls : e cFalse = false
  tru : e cTrue = true
  lit : ∀ {h nm p}, N h = some (.lit nm p) → e h = (Lit.mk nm p).eval v
  not : ∀ {h o}, N h = some (.not o) → e h = !e o
  impl : ∀ {h l r}, N h = some (.impl l r) → e h = (!e l || e r)
  equiv : ∀ {h l r}, N h = some (.equiv l r) → e h = (e l == e r)
  and : ∀ {h ops}, N h = some (.and ops) → e h = ops.all e
  or : ∀ {h ops}, N h = some (.or ops) → e h = ops.any e
  cc : ∀ {h c k vs}, N h = some (.cc c k vs) → e h = c.holds (cntTrue e vs) k
  pbc : ∀ {h c k ts}, N h = some (.pbc c k ts) → e h = c.holds (sumH e ts) k

theorem Cons.of_ext {N N' : Nodes} {v e} (x : Ext N N') (c : Cons N' v e) : Cons N v e :=
  ⟨c.fls, c.tru, fun h => c.lit (x _ _ h), fun h => c.not (x _ _ h), fun h => c.impl (x _ _ h),
   fun h => c.equiv (x _ _ h), fun h => c.and (x _ _ h), fun h => c.or (x _ _ h), fun h => c.cc (x _ _ h), fun h => c.pbc (x _ _ h)⟩

theorem Cons.eval {N : Nodes} {v e} (c : Cons N v e) (f : Fm String) : ∀ h, Den N f h → e h = f.eval v := by
  have auxA : ∀ fs : List (Fm String), (∀ f ∈ fs, ∀ h, Den N f h → e h = f.eval v) → ∀ hs, DenL N fs hs →
      hs.map e = fs.map (Fm.eval v) := by
    intro fs
    induction fs with
    | nil => intro _ hs d; rw [DenL_nil] at d; rw [d]; rfl
    | cons f fs ih =>
      intro H hs d
      rw [DenL_cons] at d
      obtain ⟨h, t, rfl, d1, d2⟩ := d
      simp only [List.map_cons, H f (by simp) _ d1, ih (fun g hg => H g (by simp [hg])) _ d2]
  induction f using Fm.ind with
  | hf => intro h d; simp only [Den] at d; rw [d, c.fls]; simp
  | ht => intro h d; simp only [Den] at d; rw [d, c.tru]; simp
  | hl l => intro h d; simp only [Den] at d; rw [c.lit d]; simp
  | hn f ih =>
    intro h d; simp only [Den] at d
    obtain ⟨o, h1, h2⟩ := d
    rw [c.not h1, ih _ h2]; simp
  | ha fs ih =>
    intro h d; simp only [Den] at d
    obtain ⟨o, h1, h2⟩ := d
    have := auxA fs ih _ h2
    rw [c.and h1]
    have h3 : o.all e = (o.map e).all _root_.id := by simp [List.all_map]
    have h4 : fs.all (Fm.eval v) = (fs.map (Fm.eval v)).all _root_.id := by simp [List.all_map]
    rw [Fm.eval_and, h3, h4, this]
  | ho fs ih =>
    intro h d; simp only [Den] at d
    obtain ⟨o, h1, h2⟩ := d
    have := auxA fs ih _ h2
    rw [c.or h1]
    have h3 : o.any e = (o.map e).any _root_.id := by simp [List.any_map]
    have h4 : fs.any (Fm.eval v) = (fs.map (Fm.eval v)).any _root_.id := by simp [List.any_map]
    rw [Fm.eval_or, h3, h4, this]
  | hi f g ih1 ih2 =>
    intro h d; simp only [Den] at d
    obtain ⟨l, r, h1, h2, h3⟩ := d
    rw [c.impl h1, ih1 _ h2, ih2 _ h3]; simp
  | he f g ih1 ih2 =>
    intro h d; simp only [Den] at d
    obtain ⟨l, r, h1, h2, h3⟩ := d
    rw [c.equiv h1, ih1 _ h2, ih2 _ h3]; simp
  | hc cm k xs =>
    intro h d; simp only [Den] at d
    obtain ⟨os, h1, h2⟩ := d
    rw [c.cc h1, Fm.eval_cc]
    congr 1
    clear h1
    induction xs generalizing os with
    | nil => simp at h2; rw [h2]; rfl
    | cons x xs ih =>
      match os, h2 with
      | o :: os, h2 =>
        simp only [List.map_cons, List.cons.injEq] at h2
        simp only [cntTrue, c.lit h2.1, ih os h2.2, Lit.eval, if_true]
  | hp cm k xs =>
    intro h d; simp only [Den] at d
    obtain ⟨os, h1, h2⟩ := d
    rw [c.pbc h1, Fm.eval_pbc]
    congr 1
    clear h1
    induction xs generalizing os with
    | nil => simp at h2; rw [h2]; rfl
    | cons x xs ih =>
      match os, h2 with
      | (a, o) :: os, h2 =>
        simp only [List.map_cons, List.cons.injEq, Prod.mk.injEq] at h2
        obtain ⟨b, l⟩ := x
        simp only [sumH, linSum, c.lit h2.1.2, ih os h2.2]
        simp only at h2
        rw [h2.1.1]

/-- the valuation of handles induced by an assignment -/
noncomputable def evalH (N : Nodes) (v : String → Bool) (h : H) : Bool :=
  open Classical in if hx : ∃ f, Den N f h then (hx.choose).eval v else false

theorem evalH_den {N : Nodes} {id : Nat} (c : Core N id) {v : String → Bool} {f : Fm String} {h : H} (d : Den N f h) :
    evalH N v h = f.eval v := by
  have hx : ∃ f, Den N f h := ⟨f, d⟩
  unfold evalH
  rw [dif_pos hx, Den.det c.ne_const _ _ _ hx.choose_spec d]

theorem DenL_all {N : Nodes} {id : Nat} (c : Core N id) {v : String → Bool} : ∀ {fs : List (Fm String)} {hs : List H},
    DenL N fs hs → hs.map (evalH N v) = fs.map (Fm.eval v)
  | [], hs, d => by rw [DenL_nil] at d; rw [d]; rfl
  | f :: fs, hs, d => by
    rw [DenL_cons] at d
    obtain ⟨h, t, rfl, d1, d2⟩ := d
    simp only [List.map_cons, evalH_den c d1, DenL_all c d2]

theorem evalH_cons {N : Nodes} {id : Nat} (c : Core N id) (v : String → Bool) : Cons N v (evalH N v) := by
  have fl : evalH N v cFalse = false := by rw [evalH_den c (f := .fls) (by simp [Den])]; simp
  have tr : evalH N v cTrue = true := by rw [evalH_den c (f := .tru) (by simp [Den])]; simp
  have li : ∀ {h nm p}, N h = some (.lit nm p) → evalH N v h = (Lit.mk nm p).eval v := by
    intro h nm p hn
    rw [evalH_den c (f := .lit ⟨nm, p⟩) (by simp [Den, hn])]; simp
  have gen : ∀ {h n}, N h = some n → ∃ f, Den N f h := fun hn => Den.total c _ (.inr (.inr (by rw [hn]; rfl)))
  refine ⟨fl, tr, li, ?_, ?_, ?_, ?_, ?_, ?_, ?_⟩
  · intro h o hn
    obtain ⟨f, hf⟩ := gen hn
    rw [evalH_den c hf]
    cases f <;> simp [Den, hn] at hf
    · subst hf; exact absurd rfl (c.ne_const _ _ hn).1
    · subst hf; exact absurd rfl (c.ne_const _ _ hn).2
    · rw [evalH_den c hf]; simp
  · intro h l r hn
    obtain ⟨f, hf⟩ := gen hn
    rw [evalH_den c hf]
    cases f <;> simp [Den, hn] at hf
    · subst hf; exact absurd rfl (c.ne_const _ _ hn).1
    · subst hf; exact absurd rfl (c.ne_const _ _ hn).2
    · obtain ⟨_, _, ⟨rfl, rfl⟩, h1, h2⟩ := hf
      rw [evalH_den c h1, evalH_den c h2]; simp
  · intro h l r hn
    obtain ⟨f, hf⟩ := gen hn
    rw [evalH_den c hf]
    cases f <;> simp [Den, hn] at hf
    · subst hf; exact absurd rfl (c.ne_const _ _ hn).1
    · subst hf; exact absurd rfl (c.ne_const _ _ hn).2
    · obtain ⟨_, _, ⟨rfl, rfl⟩, h1, h2⟩ := hf
      rw [evalH_den c h1, evalH_den c h2]; simp
  · intro h ops hn
    obtain ⟨f, hf⟩ := gen hn
    rw [evalH_den c hf]
    cases f <;> simp [Den, hn] at hf
    · subst hf; exact absurd rfl (c.ne_const _ _ hn).1
    · subst hf; exact absurd rfl (c.ne_const _ _ hn).2
    · rename_i fs
      have := DenL_all c (v := v) hf
      have h3 : ops.all (evalH N v) = (ops.map (evalH N v)).all _root_.id := by simp [List.all_map]
      have h4 : fs.all (Fm.eval v) = (fs.map (Fm.eval v)).all _root_.id := by simp [List.all_map]
      rw [Fm.eval_and, h3, h4, this]
  · intro h ops hn
    obtain ⟨f, hf⟩ := gen hn
    rw [evalH_den c hf]
    cases f <;> simp [Den, hn] at hf
    · subst hf; exact absurd rfl (c.ne_const _ _ hn).1
    · subst hf; exact absurd rfl (c.ne_const _ _ hn).2
    · rename_i fs
      have := DenL_all c (v := v) hf
      have h3 : ops.any (evalH N v) = (ops.map (evalH N v)).any _root_.id := by simp [List.any_map]
      have h4 : fs.any (Fm.eval v) = (fs.map (Fm.eval v)).any _root_.id := by simp [List.any_map]
      rw [Fm.eval_or, h3, h4, this]
  · intro h cm k vs hn
    obtain ⟨f, hf⟩ := gen hn
    rw [evalH_den c hf]
    cases f <;> simp only [Den, hn, Option.some.injEq, Node.cc.injEq, reduceCtorEq, false_and, exists_false] at hf
    · subst hf; exact absurd rfl (c.ne_const _ _ hn).1
    · subst hf; exact absurd rfl (c.ne_const _ _ hn).2
    · rename_i cm' k' xs
      obtain ⟨os, ⟨rfl, rfl, rfl⟩, h2⟩ := hf
      rw [Fm.eval_cc]
      congr 1
      clear hn
      induction xs generalizing vs with
      | nil => simp at h2; rw [h2]; rfl
      | cons x xs ih =>
        match vs, h2 with
        | o :: os, h2 =>
          simp only [List.map_cons, List.cons.injEq] at h2
          simp only [cntTrue, li h2.1, ih h2.2, Lit.eval, if_true]
  · intro h cm k vs hn
    obtain ⟨f, hf⟩ := gen hn
    rw [evalH_den c hf]
    cases f <;> simp only [Den, hn, Option.some.injEq, Node.pbc.injEq, reduceCtorEq, false_and, exists_false] at hf
    · subst hf; exact absurd rfl (c.ne_const _ _ hn).1
    · subst hf; exact absurd rfl (c.ne_const _ _ hn).2
    · rename_i cm' k' xs
      obtain ⟨os, ⟨rfl, rfl, rfl⟩, h2⟩ := hf
      rw [Fm.eval_pbc]
      congr 1
      clear hn
      induction xs generalizing vs with
      | nil => simp at h2; rw [h2]; rfl
      | cons x xs ih =>
        match vs, h2 with
        | (a, o) :: os, h2 =>
          simp only [List.map_cons, List.cons.injEq, Prod.mk.injEq] at h2
          obtain ⟨b, l⟩ := x
          simp only [sumH, linSum, li h2.1.2, ih h2.2]
          simp only at h2
          rw [h2.1.1]

/-! ### complements and equal ids -/

theorem V.eq_of_id {N : Nodes} {id : Nat} (c : Core N id) {a b : H} (ha : V N a) (hb : V N b) (e : a.id = b.id) : a = b := by
  have key : ∀ {x : H}, (N x).isSome → 2 ≤ x.id := fun hx => by
    obtain ⟨n, hn⟩ := Option.isSome_iff_exists.1 hx
    exact (c.range hn).1
  rcases ha with rfl | rfl | ha <;> rcases hb with rfl | rfl | hb
  · rfl
  · simp [cFalse, cTrue] at e
  · have := key hb; simp [cFalse] at e; omega
  · simp [cFalse, cTrue] at e
  · rfl
  · have := key hb; simp [cTrue] at e; omega
  · have := key ha; simp [cFalse] at e; omega
  · have := key ha; simp [cTrue] at e; omega
  · obtain ⟨n, hn⟩ := Option.isSome_iff_exists.1 ha
    obtain ⟨m, hm⟩ := Option.isSome_iff_exists.1 hb
    exact c.uniq hn hm e

/-- If the ids of two handles differ in the last bit, the handles are negations of each other. -/
theorem V.compl_even {N : Nodes} {id : Nat} (c : Core N id) {a b : H} (ha : V N a) (hb : V N b)
    (hev : a.id % 2 = 0) (e : a.id + 1 = b.id) : IsNot N b a ∧ IsNot N a b := by
  have key : ∀ {x : H}, (N x).isSome → 2 ≤ x.id := fun hx => by
    obtain ⟨n, hn⟩ := Option.isSome_iff_exists.1 hx
    exact (c.range hn).1
  rcases ha with rfl | rfl | ha
  · have : b = cTrue := V.eq_of_id c hb (.inr (.inl rfl)) (by rw [← e]; rfl)
    exact ⟨.tru this rfl, .fls rfl this⟩
  · simp [cTrue] at hev
  · have h2 := key ha
    obtain ⟨n, hn⟩ := Option.isSome_iff_exists.1 ha
    have hok := c.ok hn
    have hneg := (c.par hn).1 hev
    cases n with
    | lit nm p =>
      cases p with
      | true => simp [Node.isNeg] at hneg
      | false =>
        simp only [NodeOk] at hok
        have : b = ⟨.lit, a.id + 1⟩ := V.eq_of_id c hb (.inr (.inr (by rw [hok]; rfl))) e.symm
        rw [← this] at hok
        exact ⟨.lit nm true hok hn, .lit nm false hn hok⟩
    | not o =>
      simp only [NodeOk] at hok
      have : b = o := V.eq_of_id c hb (.inr (.inr hok.2.1)) (by omega)
      subst this
      exact ⟨.up hn hok.2.1, .down hn hok.2.1⟩
    | _ => simp [Node.isNeg] at hneg

theorem V.compl {N : Nodes} {id : Nat} (c : Core N id) {a b : H} (ha : V N a) (hb : V N b) (e : a.id = negId b.id) :
    IsNot N b a ∧ IsNot N a b := by
  rcases negId_cases b.id with ⟨h1, h2⟩ | ⟨h1, h2⟩
  · exact (V.compl_even c hb ha h1 (by omega)).symm
  · exact V.compl_even c ha hb (by omega) (by omega)

theorem IsNot.eval {N : Nodes} {v e} (c : Cons N v e) {o h : H} (hn : IsNot N o h) : e h = !e o := by
  cases hn with
  | fls h1 h2 => rw [h1, h2, c.fls, c.tru]; rfl
  | tru h1 h2 => rw [h1, h2, c.fls, c.tru]; rfl
  | lit nm p h1 h2 => rw [c.lit h1, c.lit h2]; cases p <;> simp [Lit.eval]
  | down h1 h2 => rw [c.not h1]; simp
  | up h1 h2 => rw [c.not h1]

/-- relation between the id set and the operand list in the condensing loop -/
def AccOkAnd (N : Nodes) (a : Acc) : Prop := (∀ i, i ∈ a.ids ↔ ∃ o ∈ a.ops, o.id = i) ∧ ∀ o ∈ a.ops, V N o

theorem addFormulaAnd_ok {s : Fac} {a a' : Acc} {f : H} (hf : V s.nodes f) (h : AccOkAnd s.nodes a)
    (e : addFormulaAnd s a f = some a') : AccOkAnd s.nodes a' := by
  rcases addFormulaAnd_some e with ⟨_, rfl⟩ | ⟨_, _, _, h3, _⟩
  · exact h
  · rcases h3 with ⟨_, h1, h2⟩ | ⟨_, h1, h2⟩
    · unfold AccOkAnd; rw [h1, h2]; exact h
    · unfold AccOkAnd; rw [h1, h2]
      refine ⟨?_, ?_⟩
      · intro i
        simp only [List.mem_cons, List.mem_append, h.1 i]
        constructor
        · rintro (rfl | ⟨o, ho, rfl⟩)
          · exact ⟨f, .inr (.inl rfl), rfl⟩
          · exact ⟨o, .inl ho, rfl⟩
        · rintro ⟨o, ho | ho, rfl⟩
          · exact .inr ⟨o, ho, rfl⟩
          · rcases ho with rfl | ho
            · exact .inl rfl
            · simp at ho
      · intro o ho
        rcases List.mem_append.1 ho with h4 | h4
        · exact h.2 o h4
        · simp at h4; exact h4 ▸ hf

theorem addFormulaAnd_sem {s : Fac} (i : Inv s) {v e} (c : Cons s.nodes v e) {a : Acc} {f : H} (hf : V s.nodes f)
    (h : AccOkAnd s.nodes a) :
    match addFormulaAnd s a f with
    | some a' => a'.ops.all e = (a.ops.all e && e f)
    | none => (a.ops.all e && e f) = false := by
  split
  · rename_i a' e1
    rcases addFormulaAnd_some e1 with ⟨rfl, rfl⟩ | ⟨_, _, _, h3, _⟩
    · simp [c.tru]
    · rcases h3 with ⟨h1, h2, _⟩ | ⟨_, h2, _⟩
      · rw [h2]
        obtain ⟨o, ho, hid⟩ := (h.1 _).1 h1
        have := V.eq_of_id i.core (h.2 o ho) hf hid
        subst this
        cases hx : e o with
        | true => simp
        | false => simp; exact ⟨o, ho, hx⟩
      · rw [h2]; simp
  · rename_i e1
    unfold addFormulaAnd at e1
    split at e1
    · simp at e1
    split at e1
    · rename_i h2
      rcases h2 with rfl | h2
      · simp [c.fls]
      · unfold containsComplement at h2
        split at h2
        · simp at h2
        · simp at h2
          obtain ⟨o, ho, hid⟩ := (h.1 _).1 h2
          have := (V.compl i.core (h.2 o ho) hf hid).2.eval c
          cases hx : e f with
          | false => simp
          | true =>
            rw [hx] at this
            simp
            exact ⟨o, ho, by simpa using this.symm⟩
    · exfalso
      split at e1 <;> split at e1 <;> simp at e1

theorem foldAddAnd_sem {s : Fac} (i : Inv s) {v e} (c : Cons s.nodes v e) : ∀ {fs : List H} {a : Acc}, (∀ f ∈ fs, V s.nodes f) →
    AccOkAnd s.nodes a →
    match foldOpt (addFormulaAnd s) a fs with
    | some a' => AccOkAnd s.nodes a' ∧ a'.ops.all e = (a.ops.all e && fs.all e)
    | none => (a.ops.all e && fs.all e) = false
  | [], a, _, h => by simp [foldOpt, h]
  | f :: fs, a, hf, h => by
    have h1 := addFormulaAnd_sem i c (hf f (by simp)) h
    simp only [foldOpt]
    cases e1 : addFormulaAnd s a f with
    | none =>
      rw [e1] at h1
      simp only at h1 ⊢
      rw [List.all_cons, ← Bool.and_assoc, h1]; simp
    | some a' =>
      rw [e1] at h1
      simp only at h1 ⊢
      have h2 := foldAddAnd_sem i c (fs := fs) (a := a') (fun g hg => hf g (by simp [hg])) (addFormulaAnd_ok (hf f (by simp)) h e1)
      rw [List.all_cons, ← Bool.and_assoc, ← h1]
      exact h2

theorem condenseAnd_fold {s : Fac} (i : Inv s) {v e} (c : Cons s.nodes v e) : ∀ {fs : List H} {a : Acc}, (∀ f ∈ fs, V s.nodes f) →
    AccOkAnd s.nodes a →
    match foldOpt (fun a f => if f.sort = .and then foldOpt (addFormulaAnd s) a (andOps s f) else addFormulaAnd s a f) a fs with
    | some a' => AccOkAnd s.nodes a' ∧ a'.ops.all e = (a.ops.all e && fs.all e)
    | none => (a.ops.all e && fs.all e) = false
  | [], a, _, h => by simp [foldOpt, h]
  | f :: fs, a, hf, h => by
    have hstep : match (if f.sort = .and then foldOpt (addFormulaAnd s) a (andOps s f) else addFormulaAnd s a f) with
        | some a' => AccOkAnd s.nodes a' ∧ a'.ops.all e = (a.ops.all e && e f)
        | none => (a.ops.all e && e f) = false := by
      by_cases hs : f.sort = .and
      · rw [if_pos hs]
        have hsome : (s.nodes f).isSome := (hf f (by simp)).isSome (by rintro rfl; simp [cFalse] at hs) (by rintro rfl; simp [cTrue] at hs)
        obtain ⟨n, hn⟩ := Option.isSome_iff_exists.1 hsome
        have hsort := i.core.sort hn
        rw [hs] at hsort
        cases n with
        | and os =>
          have hok := i.core.ok hn
          have h3 : andOps s f = os := by simp [andOps, hn]
          rw [h3, c.and hn]
          exact foldAddAnd_sem i c (fs := os) (a := a) (fun g hg => .inr (.inr (hok.2 g hg).1)) h
        | _ => simp [Node.sort] at hsort
      · rw [if_neg hs]
        have h1 := addFormulaAnd_sem i c (hf f (by simp)) h
        cases e1 : addFormulaAnd s a f with
        | none => rw [e1] at h1; exact h1
        | some a' => rw [e1] at h1; exact ⟨addFormulaAnd_ok (hf f (by simp)) h e1, h1⟩
    simp only [foldOpt]
    generalize (if f.sort = .and then foldOpt (addFormulaAnd s) a (andOps s f) else addFormulaAnd s a f) = r at hstep
    cases r with
    | none =>
      simp only at hstep ⊢
      rw [List.all_cons, ← Bool.and_assoc, hstep]; simp
    | some a' =>
      simp only at hstep ⊢
      have h2 := condenseAnd_fold i c (fs := fs) (a := a') (fun g hg => hf g (by simp [hg])) hstep.1
      rw [List.all_cons, ← Bool.and_assoc, ← hstep.2]
      exact h2

theorem condenseAnd_sem {s : Fac} (i : Inv s) {v e} (c : Cons s.nodes v e) {ops : List H} (ho : ∀ f ∈ ops, V s.nodes f) :
    match condenseAnd s ops with
    | some a => a.ops.all e = ops.all e
    | none => ops.all e = false := by
  have h := condenseAnd_fold i c (fs := ops) (a := ⟨[], [], true⟩) ho (by simp [AccOkAnd])
  unfold condenseAnd
  revert h
  generalize foldOpt (fun a f => if f.sort = .and then foldOpt (addFormulaAnd s) a (andOps s f) else addFormulaAnd s a f) ⟨[], [], true⟩ ops = r
  intro h
  cases r with
  | none => simpa using h
  | some a => simpa using h.2

/-- relation between the id set and the operand list in the condensing loop -/
def AccOkOr (N : Nodes) (a : Acc) : Prop := (∀ i, i ∈ a.ids ↔ ∃ o ∈ a.ops, o.id = i) ∧ ∀ o ∈ a.ops, V N o

theorem addFormulaOr_ok {s : Fac} {a a' : Acc} {f : H} (hf : V s.nodes f) (h : AccOkOr s.nodes a)
    (e : addFormulaOr s a f = some a') : AccOkOr s.nodes a' := by
  rcases addFormulaOr_some e with ⟨_, rfl⟩ | ⟨_, _, _, h3, _⟩
  · exact h
  · rcases h3 with ⟨_, h1, h2⟩ | ⟨_, h1, h2⟩
    · unfold AccOkOr; rw [h1, h2]; exact h
    · unfold AccOkOr; rw [h1, h2]
      refine ⟨?_, ?_⟩
      · intro i
        simp only [List.mem_cons, List.mem_append, h.1 i]
        constructor
        · rintro (rfl | ⟨o, ho, rfl⟩)
          · exact ⟨f, .inr (.inl rfl), rfl⟩
          · exact ⟨o, .inl ho, rfl⟩
        · rintro ⟨o, ho | ho, rfl⟩
          · exact .inr ⟨o, ho, rfl⟩
          · rcases ho with rfl | ho
            · exact .inl rfl
            · simp at ho
      · intro o ho
        rcases List.mem_append.1 ho with h4 | h4
        · exact h.2 o h4
        · simp at h4; exact h4 ▸ hf

theorem addFormulaOr_sem {s : Fac} (i : Inv s) {v e} (c : Cons s.nodes v e) {a : Acc} {f : H} (hf : V s.nodes f)
    (h : AccOkOr s.nodes a) :
    match addFormulaOr s a f with
    | some a' => a'.ops.any e = (a.ops.any e || e f)
    | none => (a.ops.any e || e f) = true := by
  split
  · rename_i a' e1
    rcases addFormulaOr_some e1 with ⟨rfl, rfl⟩ | ⟨_, _, _, h3, _⟩
    · simp [c.fls]
    · rcases h3 with ⟨h1, h2, _⟩ | ⟨_, h2, _⟩
      · rw [h2]
        obtain ⟨o, ho, hid⟩ := (h.1 _).1 h1
        have := V.eq_of_id i.core (h.2 o ho) hf hid
        subst this
        cases hx : e o with
        | false => simp
        | true => simp; exact ⟨o, ho, hx⟩
      · rw [h2]; simp
  · rename_i e1
    unfold addFormulaOr at e1
    split at e1
    · simp at e1
    split at e1
    · rename_i h2
      rcases h2 with rfl | h2
      · simp [c.tru]
      · unfold containsComplement at h2
        split at h2
        · simp at h2
        · simp at h2
          obtain ⟨o, ho, hid⟩ := (h.1 _).1 h2
          have := (V.compl i.core (h.2 o ho) hf hid).2.eval c
          cases hx : e f with
          | true => simp
          | false =>
            rw [hx] at this
            simp
            exact ⟨o, ho, by simpa using this.symm⟩
    · exfalso
      split at e1 <;> split at e1 <;> simp at e1

theorem foldAddOr_sem {s : Fac} (i : Inv s) {v e} (c : Cons s.nodes v e) : ∀ {fs : List H} {a : Acc}, (∀ f ∈ fs, V s.nodes f) →
    AccOkOr s.nodes a →
    match foldOpt (addFormulaOr s) a fs with
    | some a' => AccOkOr s.nodes a' ∧ a'.ops.any e = (a.ops.any e || fs.any e)
    | none => (a.ops.any e || fs.any e) = true
  | [], a, _, h => by simp [foldOpt, h]
  | f :: fs, a, hf, h => by
    have h1 := addFormulaOr_sem i c (hf f (by simp)) h
    simp only [foldOpt]
    cases e1 : addFormulaOr s a f with
    | none =>
      rw [e1] at h1
      simp only at h1 ⊢
      rw [List.any_cons, ← Bool.or_assoc, h1]; simp
    | some a' =>
      rw [e1] at h1
      simp only at h1 ⊢
      have h2 := foldAddOr_sem i c (fs := fs) (a := a') (fun g hg => hf g (by simp [hg])) (addFormulaOr_ok (hf f (by simp)) h e1)
      rw [List.any_cons, ← Bool.or_assoc, ← h1]
      exact h2

theorem condenseOr_fold {s : Fac} (i : Inv s) {v e} (c : Cons s.nodes v e) : ∀ {fs : List H} {a : Acc}, (∀ f ∈ fs, V s.nodes f) →
    AccOkOr s.nodes a →
    match foldOpt (fun a f => if f.sort = .or then foldOpt (addFormulaOr s) a (orOps s f) else addFormulaOr s a f) a fs with
    | some a' => AccOkOr s.nodes a' ∧ a'.ops.any e = (a.ops.any e || fs.any e)
    | none => (a.ops.any e || fs.any e) = true
  | [], a, _, h => by simp [foldOpt, h]
  | f :: fs, a, hf, h => by
    have hstep : match (if f.sort = .or then foldOpt (addFormulaOr s) a (orOps s f) else addFormulaOr s a f) with
        | some a' => AccOkOr s.nodes a' ∧ a'.ops.any e = (a.ops.any e || e f)
        | none => (a.ops.any e || e f) = true := by
      by_cases hs : f.sort = .or
      · rw [if_pos hs]
        have hsome : (s.nodes f).isSome := (hf f (by simp)).isSome (by rintro rfl; simp [cFalse] at hs) (by rintro rfl; simp [cTrue] at hs)
        obtain ⟨n, hn⟩ := Option.isSome_iff_exists.1 hsome
        have hsort := i.core.sort hn
        rw [hs] at hsort
        cases n with
        | or os =>
          have hok := i.core.ok hn
          have h3 : orOps s f = os := by simp [orOps, hn]
          rw [h3, c.or hn]
          exact foldAddOr_sem i c (fs := os) (a := a) (fun g hg => .inr (.inr (hok.2 g hg).1)) h
        | _ => simp [Node.sort] at hsort
      · rw [if_neg hs]
        have h1 := addFormulaOr_sem i c (hf f (by simp)) h
        cases e1 : addFormulaOr s a f with
        | none => rw [e1] at h1; exact h1
        | some a' => rw [e1] at h1; exact ⟨addFormulaOr_ok (hf f (by simp)) h e1, h1⟩
    simp only [foldOpt]
    generalize (if f.sort = .or then foldOpt (addFormulaOr s) a (orOps s f) else addFormulaOr s a f) = r at hstep
    cases r with
    | none =>
      simp only at hstep ⊢
      rw [List.any_cons, ← Bool.or_assoc, hstep]; simp
    | some a' =>
      simp only at hstep ⊢
      have h2 := condenseOr_fold i c (fs := fs) (a := a') (fun g hg => hf g (by simp [hg])) hstep.1
      rw [List.any_cons, ← Bool.or_assoc, ← hstep.2]
      exact h2

theorem condenseOr_sem {s : Fac} (i : Inv s) {v e} (c : Cons s.nodes v e) {ops : List H} (ho : ∀ f ∈ ops, V s.nodes f) :
    match condenseOr s ops with
    | some a => a.ops.any e = ops.any e
    | none => ops.any e = true := by
  have h := condenseOr_fold i c (fs := ops) (a := ⟨[], [], true⟩) ho (by simp [AccOkOr])
  unfold condenseOr
  revert h
  generalize foldOpt (fun a f => if f.sort = .or then foldOpt (addFormulaOr s) a (orOps s f) else addFormulaOr s a f) ⟨[], [], true⟩ ops = r
  intro h
  cases r with
  | none => simpa using h
  | some a => simpa using h.2

theorem AndPost.eval {s s' : Fac} (i : Inv s) (g : Good s s') {v e} (c : Cons s'.nodes v e) {ops : List H} {h : H}
    (ho : ∀ f ∈ ops, V s.nodes f) (p : AndPost s s'.nodes ops h) : e h = ops.all e := by
  have c0 := c.of_ext g.ext
  rcases p with p | p
  · exact c0.and p
  · have := condenseAnd_sem i c0 ho
    cases e1 : condenseAnd s ops with
    | none => rw [e1] at this p; simp only at this p; rw [p, c.fls, this]
    | some a =>
      rw [e1] at this p
      simp only at this p
      rw [← this]
      split at p
      · rename_i h2; rw [p, h2, c.tru]; rfl
      · rename_i f h2; rw [p, h2]; simp
      · exact c.and p
theorem OrPost.eval {s s' : Fac} (i : Inv s) (g : Good s s') {v e} (c : Cons s'.nodes v e) {ops : List H} {h : H}
    (ho : ∀ f ∈ ops, V s.nodes f) (p : OrPost s s'.nodes ops h) : e h = ops.any e := by
  have c0 := c.of_ext g.ext
  rcases p with p | p
  · exact c0.or p
  · have := condenseOr_sem i c0 ho
    cases e1 : condenseOr s ops with
    | none => rw [e1] at this p; simp only at this p; rw [p, c.tru, this]
    | some a =>
      rw [e1] at this p
      simp only at this p
      rw [← this]
      split at p
      · rename_i h2; rw [p, h2, c.fls]; rfl
      · rename_i f h2; rw [p, h2]; simp
      · exact c.or p

theorem ImplPost.eval {cons : Bool} {N : Nodes} {id : Nat} (k : Core N id) {v e} (c : Cons N v e) {l r h : H}
    (hl : V N l) (hr : V N r) (p : ImplPost cons N l r h) : e h = (!e l || e r) := by
  unfold ImplPost at p
  split at p
  · rename_i h1; rw [p, c.tru]; rcases h1 with rfl | rfl
    · simp [c.fls]
    · simp [c.tru]
  split at p
  · rename_i h1; subst h1; rw [p]; simp [c.tru]
  split at p
  · rename_i h1
    rw [p.eval c]
    rcases h1 with rfl | h1
    · simp [c.fls]
    · have := (V.compl k hl hr h1).1.eval c
      rw [this]; cases e r <;> rfl
  split at p
  · rename_i h1; rw [p, h1.2, c.tru]; simp
  · exact c.impl p
theorem EquivPost.eval {cons : Bool} {N : Nodes} {id : Nat} (k : Core N id) {v e} (c : Cons N v e) {l r h : H}
    (hl : V N l) (hr : V N r) (p : EquivPost cons N l r h) : e h = (e l == e r) := by
  unfold EquivPost at p
  split at p
  · rename_i h1; rw [p, h1, c.tru]; simp
  split at p
  · rename_i h1; rw [p, h1, c.tru]; simp
  split at p
  · rename_i h1; rw [p.eval c, h1, c.fls]; simp
  split at p
  · rename_i h1; rw [p.eval c, h1, c.fls]; simp
  split at p
  · rename_i h1; rw [p, h1.2, c.tru]; simp
  split at p
  · rename_i h1
    have := (V.compl k hl hr h1.2).1.eval c
    rw [p, c.fls, this]; cases e r <;> rfl
  · exact c.equiv p
theorem MintermPost.eval {N : Nodes} {v e} (c : Cons N v e) {ops : List H} {h : H} (p : MintermPost N ops h) :
    e h = ops.all e := by
  unfold MintermPost at p
  split at p
  · rw [p, c.tru]; rfl
  · rw [p]; simp
  · exact c.and p
theorem ClausePost.eval {N : Nodes} {v e} (c : Cons N v e) {ops : List H} {h : H} (p : ClausePost N ops h) :
    e h = ops.any e := by
  unfold ClausePost at p
  split at p
  · rw [p, c.fls]; rfl
  · rw [p]; simp
  · exact c.or p

theorem evalTrivialPB_eq (c : Cmp) (k : Int) : evalTrivialPB c k = c.holds 0 k := by
  cases c <;> simp [evalTrivialPB, Cmp.holds, eq_comm]
theorem Cons.constant {N : Nodes} {v e} (c : Cons N v e) (b : Bool) : e (Verif.Factory.constant b) = b := by
  cases b <;> simp [Verif.Factory.constant, c.fls, c.tru]
theorem CCPost.eval {N : Nodes} {v e} (c : Cons N v e) {cm : Cmp} {k : Int} {vs : List H} {h : H} (p : CCPost N cm k vs h) :
    e h = cm.holds (cntTrue e vs) k := by
  unfold CCPost at p
  split at p
  · rename_i h1; rw [p, c.constant, evalTrivialPB_eq, h1]; rfl
  · exact c.cc p
theorem sumH_ones (e : H → Bool) : ∀ {ts : List (Int × H)}, (∀ t ∈ ts, t.1 = 1) → sumH e ts = cntTrue e (ts.map (·.2))
  | [], _ => rfl
  | (a, h) :: ts, H => by
    have : a = 1 := H (a, h) (by simp)
    subst this
    simp only [sumH, List.map_cons, cntTrue]
    rw [sumH_ones e (fun t ht => H t (by simp [ht]))]
theorem PBCPost.eval {N : Nodes} {v e} (c : Cons N v e) {cm : Cmp} {k : Int} {ts : List (Int × H)} {h : H}
    (p : PBCPost N cm k ts h) : e h = cm.holds (sumH e ts) k := by
  unfold PBCPost at p
  split at p
  · rename_i h1; rw [p, c.constant, evalTrivialPB_eq, h1]; rfl
  split at p
  · rename_i h1
    rw [c.cc p, sumH_ones]
    unfold isCC at h1
    simp only [Bool.and_eq_true, List.all_eq_true, decide_eq_true_eq] at h1
    exact fun t ht => h1.1.2 t ht
  · exact c.pbc p

end Verif.Factory
