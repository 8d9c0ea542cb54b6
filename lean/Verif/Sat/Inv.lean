import Verif.Sat.Model
/-!
# Invariants of the solver state; propagation
-/
namespace Verif.Sat

/-! ## values -/

theorem upd_same {β : Type} (f : Nat → β) (k : Nat) (b : β) : upd f k b k = b := by simp [upd]
theorem upd_ne {β : Type} (f : Nat → β) {k x : Nat} (b : β) (h : x ≠ k) : upd f k b x = f x := by simp [upd, h]

theorem value_neg (s : S) (l : Nat) : s.value (neg l) = (s.value l).map not := by
  unfold S.value
  rw [neg_var, neg_mod]
  rcases Nat.mod_two_eq_zero_or_one l with h | h <;> simp [h]
  cases s.val (l / 2) <;> simp

theorem value_none (s : S) (l : Nat) : s.value l = none ↔ s.val (l / 2) = none := by
  unfold S.value; split <;> simp

theorem value_false (s : S) (l : Nat) : s.value l = some false ↔ s.value (neg l) = some true := by
  rw [value_neg]; cases h : s.value l with
  | none => simp
  | some b => cases b <;> simp

theorem value_enqueue (s : S) (l : Nat) (r : Option Nat) (x : Nat) :
    (enqueue s l r).value x = if x = l then some true else if x = neg l then some false else s.value x := by
  unfold S.value enqueue
  dsimp only
  by_cases h1 : x = l
  · subst h1
    rw [upd_same, if_pos rfl]
    rcases Nat.mod_two_eq_zero_or_one x with h | h <;> simp [h]
  rw [if_neg h1]
  by_cases h2 : x = neg l
  · subst h2
    rw [neg_var, upd_same, if_pos rfl, neg_mod]
    rcases Nat.mod_two_eq_zero_or_one l with h | h <;> simp [h]
  rw [if_neg h2, upd_ne]
  intro h
  rcases var_eq h with h | h
  · exact h1 h
  · exact h2 h

/-! ## invariants -/

/-- clause store and watcher lists fit together -/
structure Db (s : S) : Prop where
  idlt : ∀ c ∈ s.att, c < s.nextId
  nodupAtt : s.att.Nodup
  clNodup : ∀ c ∈ s.att, (s.cls c).lits.Nodup
  range : ∀ c ∈ s.att, ∀ l ∈ (s.cls c).lits, l / 2 < s.nVars
  wNodup : ∀ l, ((s.watches l).map Prod.fst).Nodup
  wMem : ∀ l c b, (c, b) ∈ s.watches l → s.am c = none → c ∈ s.att ∧ (s.cls c).rest ≠ [] ∧ (neg l = (s.cls c).a ∨ neg l = (s.cls c).b) ∧ b ∈ (s.cls c).lits
  wAll : ∀ c ∈ s.att, (s.cls c).rest ≠ [] → ∀ w, (w = (s.cls c).a ∨ w = (s.cls c).b) → c ∈ (s.watches (neg w)).map Prod.fst
  bMem : ∀ l c b, (c, b) ∈ s.watchesBin l → c ∈ s.att ∧ (s.cls c).rest = [] ∧ ((neg l = (s.cls c).a ∧ b = (s.cls c).b) ∨ (neg l = (s.cls c).b ∧ b = (s.cls c).a))
  bAll : ∀ c ∈ s.att, (s.cls c).rest = [] → ∀ w, (w = (s.cls c).a ∨ w = (s.cls c).b) → c ∈ (s.watchesBin (neg w)).map Prod.fst
  seen0 : ∀ v, s.seen v = false
  wOne : ∀ c ∈ s.att, (s.cls c).rest ≠ [] → (c, (s.cls c).b) ∈ s.watches (neg (s.cls c).a) ∨ (c, (s.cls c).a) ∈ s.watches (neg (s.cls c).b)

/-- the at-most clause `c` is a proper reason of `l`: it contains the complement of `l`, its greatest number of literals is true already, and none became true later -/
def AmReason (s : S) (c : Nat) (k : Am) (l : Nat) (rest : List Nat) : Prop :=
  c ∈ s.ams ∧ neg l ∈ k.lits ∧ k.card ≤ (k.lits.filter fun q => decide (q ∈ rest)).length ∧ ∀ q ∈ k.lits, q ∈ s.trail → q ∈ rest

/-- `r` is a proper reason of the literal `l` above the literals `rest` of the trail -/
def ReasonOk (s : S) (r : Option Nat) (l : Nat) (rest : List Nat) : Prop :=
  match r with
  | none => rest.length ∈ s.trailLim
  | some c => (s.am c = none → c ∈ s.att ∧ l ∈ (s.cls c).lits ∧ ((s.cls c).rest ≠ [] → (s.cls c).a = l) ∧ ∀ q ∈ (s.cls c).lits, q ≠ l → neg q ∈ rest) ∧
      ∀ k, s.am c = some k → AmReason s c k l rest

/-- the trail fits to assignment, levels and reasons -/
structure Tr (s : S) : Prop where
  tval : ∀ l, s.value l = some true ↔ l ∈ s.trail
  trange : ∀ l ∈ s.trail, l / 2 < s.nVars
  tlev : ∀ l rest, (l :: rest) <:+ s.trail → s.level (l / 2) = (s.trailLim.filter (· ≤ rest.length)).length
  tdup : ∀ l rest, (l :: rest) <:+ s.trail → 0 < s.level (l / 2) → l ∉ rest
  treason : ∀ l rest, (l :: rest) <:+ s.trail → 0 < s.level (l / 2) → ReasonOk s (s.reason (l / 2)) l rest
  tlimS : s.trailLim.Pairwise (· ≥ ·)
  tlimLe : ∀ x ∈ s.trailLim, x ≤ s.trail.length
  heapAll : ∀ v < s.nVars, s.val v = none → v ∈ s.heap
  qle : s.qhead ≤ s.trail.length

/-- clauses and literals of level 0 follow from `Φ`; the literals of the trail belong to `J`, which is closed under propagation -/
structure Sem (Φ : (Nat → Bool) → Prop) (J : Nat → Prop) (s : S) : Prop where
  db : ∀ c ∈ s.att, ∀ u, Φ u → Sat u (s.cls c).lits
  imp0 : ∀ l ∈ s.trail, s.level (l / 2) = 0 → ∀ u, Φ u → lv u l = true
  jcl : ∀ c ∈ s.att, ∀ l ∈ (s.cls c).lits, (∀ q ∈ (s.cls c).lits, q ≠ l → J (neg q)) → J l
  jtr : ∀ l ∈ s.trail, J l

/-- the part of the trail that has been propagated -/
def S.proc (s : S) : List Nat := s.trail.drop (s.trail.length - s.qhead)

/-- the watcher condition, but for the exempted pairs of clause and watched literal: the blocker of a propagated false watched literal holds -/
def WProp (s : S) (ex : Nat → Nat → Prop) : Prop :=
  ∀ c ∈ s.att, ∀ w, (w = (s.cls c).a ∨ w = (s.cls c).b) → neg w ∈ s.proc → ¬ ex c w →
    ∃ y ∈ (s.cls c).lits, y ∈ s.trail ∧ s.level (y / 2) ≤ s.level (w / 2) ∧ ((s.cls c).rest ≠ [] → (c, y) ∈ s.watches (neg w))

/-- literals not propagated yet belong to the current level -/
def Queue (s : S) : Prop := ∀ l rest, (l :: rest) <:+ s.trail → s.qhead ≤ rest.length → s.level (l / 2) = s.dl

/-- the at-most clauses: store and watcher lists; they follow from `Φ`, and `J` is closed under them; if a watched literal has been propagated, the other watched literals
are false; if the clause is a reason, all its literals are assigned (but for the clauses in `exr`, which are at work) -/
structure AmI (Φ : (Nat → Bool) → Prop) (J : Nat → Prop) (s : S) (ex : Nat → Nat → Prop) (exr : Nat → Prop) : Prop where
  idlt : ∀ c ∈ s.ams, c < s.nextId
  new : ∀ c, s.nextId ≤ c → s.am c = none
  nd : s.ams.Nodup
  isam : ∀ c ∈ s.ams, s.am c ≠ none
  att : ∀ c ∈ s.att, s.am c = none
  bin : ∀ l c b, (c, b) ∈ s.watchesBin l → s.am c = none
  nodup : ∀ c ∈ s.ams, ∀ k, s.am c = some k → k.lits.Nodup
  pos : ∀ c ∈ s.ams, ∀ k, s.am c = some k → ∀ x ∈ k.lits, x % 2 = 0
  range : ∀ c ∈ s.ams, ∀ k, s.am c = some k → ∀ x ∈ k.lits, x / 2 < s.nVars
  two : ∀ c ∈ s.ams, ∀ k, s.am c = some k → 2 ≤ k.w.length
  wm : ∀ l c b k, (c, b) ∈ s.watches l → s.am c = some k → c ∈ s.ams ∧ l ∈ k.w
  wa : ∀ c ∈ s.ams, ∀ k, s.am c = some k → ∀ x ∈ k.w, c ∈ (s.watches x).map Prod.fst
  sem : ∀ c ∈ s.ams, ∀ k, s.am c = some k → ∀ u, Φ u → (k.lits.filter (lv u)).length ≤ k.card
  jcl : ∀ c ∈ s.ams, ∀ k, s.am c = some k → ∀ T : List Nat, T.Nodup → (∀ y ∈ T, y ∈ k.lits ∧ J y) → k.card ≤ T.length → ∀ x ∈ k.lits, x ∉ T → J (neg x)
  w : ∀ c ∈ s.ams, ∀ k, s.am c = some k → ∀ x ∈ k.w, x ∈ s.proc → ¬ ex c (neg x) → ∀ y ∈ k.w, y ≠ x → neg y ∈ s.trail ∧ s.level (y / 2) ≤ s.level (x / 2)
  full : ∀ x ∈ s.trail, 0 < s.level (x / 2) → ∀ c, s.reason (x / 2) = some c → ∀ k, s.am c = some k → ¬ exr c →
    ∀ q ∈ k.lits, (q ∈ s.trail ∨ neg q ∈ s.trail) ∧ s.level (q / 2) ≤ s.level (x / 2)

structure PI (Φ : (Nat → Bool) → Prop) (J : Nat → Prop) (s : S) (ex : Nat → Nat → Prop) : Prop where
  d : Db s
  t : Tr s
  m : Sem Φ J s
  q : Queue s
  w : WProp s ex
  a : AmI Φ J s ex (fun _ => False)

/-- as `PI`, while the at-most clauses in `exr` are at work -/
structure PI0 (Φ : (Nat → Bool) → Prop) (J : Nat → Prop) (s : S) (ex : Nat → Nat → Prop) (exr : Nat → Prop) : Prop where
  d : Db s
  t : Tr s
  m : Sem Φ J s
  q : Queue s
  w : WProp s ex
  a : AmI Φ J s ex exr

/-- the fields `AmI` depends on -/
def S.amPart (s : S) := (s.ams, s.am, s.nextId, s.att, s.nVars, s.watches, s.watchesBin, s.trail, s.level, s.reason, s.qhead)

theorem AmI.congr {Φ : (Nat → Bool) → Prop} {J : Nat → Prop} {s s' : S} {ex : Nat → Nat → Prop} {exr : Nat → Prop} (h : AmI Φ J s ex exr) (e : s'.amPart = s.amPart) :
    AmI Φ J s' ex exr := by
  unfold S.amPart at e
  simp only [Prod.mk.injEq] at e
  obtain ⟨e1, e2, e3, e4, e5, e6, e7, e8, e9, e10, e11⟩ := e
  have e12 : s'.proc = s.proc := by unfold S.proc; rw [e8, e11]
  obtain ⟨h1, h2, h3, h4, h5, h6, h7, h8, h9, h10, h11, h12, h13, h14, h15, h16⟩ := h
  constructor <;> simp only [e1, e2, e3, e4, e5, e6, e7, e8, e9, e10, e12] <;> assumption

theorem AmI.mono {Φ : (Nat → Bool) → Prop} {J : Nat → Prop} {s : S} {ex ex' : Nat → Nat → Prop} {exr : Nat → Prop} (h : AmI Φ J s ex exr)
    (hm : ∀ c ∈ s.ams, ∀ k, s.am c = some k → ∀ x ∈ k.w, x ∈ s.proc → ex c (neg x) → ¬ ex' c (neg x) → ∀ y ∈ k.w, y ≠ x → neg y ∈ s.trail ∧ s.level (y / 2) ≤ s.level (x / 2)) :
    AmI Φ J s ex' exr := by
  obtain ⟨h1, h2, h3, h4, h5, h6, h7, h8, h9, h10, h11, h12, h13, h14, h15, h16⟩ := h
  refine ⟨h1, h2, h3, h4, h5, h6, h7, h8, h9, h10, h11, h12, h13, h14, fun c hc k hk x hx hp hex => ?_, h16⟩
  by_cases e : ex c (neg x)
  · exact hm c hc k hk x hx hp e hex
  · exact h15 c hc k hk x hx hp e

theorem Am.pos_neg {k : Am} (h : ∀ x ∈ k.lits, x % 2 = 0) {x : Nat} (hx : x ∈ k.lits) : neg x ∉ k.lits := by
  intro h2
  have h1 := h _ hx
  have := h _ h2
  rw [neg_mod] at this
  omega

/-- at most clauses before and after a change of the watched literals -/
def AmSim : Option Am → Option Am → Prop
  | none, none => True
  | some k, some k' => k'.lits.Perm k.lits ∧ k'.u.length = k.u.length
  | _, _ => False

theorem AmSim.refl : ∀ o : Option Am, AmSim o o
  | none => trivial
  | some _ => ⟨.refl _, rfl⟩

theorem AmSim.trans : ∀ {a b c : Option Am}, AmSim a b → AmSim b c → AmSim a c
  | none, none, none, _, _ => trivial
  | some _, some _, some _, h, h' => ⟨h'.1.trans h.1, h'.2.trans h.2⟩

theorem AmSim.symm : ∀ {a b : Option Am}, AmSim a b → AmSim b a
  | none, none, _ => trivial
  | some _, some _, h => ⟨h.1.symm, h.2.symm⟩

theorem AmSim.none_iff : ∀ {a b : Option Am}, AmSim a b → (b = none ↔ a = none)
  | none, none, _ => Iff.rfl
  | some _, some _, _ => by simp

theorem AmSim.is : ∀ {a : Option Am} {k' : Am}, AmSim a (some k') → ∃ k, a = some k ∧ k'.lits.Perm k.lits ∧ k'.card = k.card
  | some k, _, h => ⟨k, rfl, h.1, by unfold Am.card; rw [h.2]⟩

/-- what propagation leaves alone -/
structure Frame (s s' : S) : Prop where
  nVars : s'.nVars = s.nVars
  ok : s'.ok = s.ok
  units : s'.units = s.units
  clauses : s'.clauses = s.clauses
  learnts : s'.learnts = s.learnts
  nextId : s'.nextId = s.nextId
  trailLim : s'.trailLim = s.trailLim
  conflict : s'.conflict = s.conflict
  stateId : s'.stateId = s.stateId
  valid : s'.valid = s.valid
  lits : ∀ c, (s'.cls c).lits.Perm (s.cls c).lits
  learntOn : ∀ c, (s'.cls c).learntOn = (s.cls c).learntOn
  trail : s.trail <:+ s'.trail
  level : ∀ l ∈ s.trail, s'.level (l / 2) = s.level (l / 2)
  heap : s'.heap = s.heap
  model : s'.model = s.model
  reason : ∀ l ∈ s.trail, s'.reason (l / 2) = s.reason (l / 2)
  new : ∀ l ∈ s'.trail, l ∉ s.trail → s'.reason (l / 2) ≠ none
  ams : s'.ams = s.ams
  am : ∀ c, AmSim (s.am c) (s'.am c)

theorem Frame.refl (s : S) : Frame s s :=
  ⟨rfl, rfl, rfl, rfl, rfl, rfl, rfl, rfl, rfl, rfl, fun _ => .refl _, fun _ => rfl, List.suffix_refl _, fun _ _ => rfl, rfl, rfl, fun _ _ => rfl, fun _ h hn => absurd h hn, rfl, fun _ => .refl _⟩

theorem Frame.trans {s s' s'' : S} (h : Frame s s') (h' : Frame s' s'') : Frame s s'' :=
  ⟨h'.nVars.trans h.nVars, h'.ok.trans h.ok, h'.units.trans h.units, h'.clauses.trans h.clauses, h'.learnts.trans h.learnts, h'.nextId.trans h.nextId,
    h'.trailLim.trans h.trailLim, h'.conflict.trans h.conflict, h'.stateId.trans h.stateId, h'.valid.trans h.valid,
    fun c => (h'.lits c).trans (h.lits c), fun c => (h'.learntOn c).trans (h.learntOn c), h.trail.trans h'.trail,
    fun l hl => (h'.level l (h.trail.subset hl)).trans (h.level l hl), h'.heap.trans h.heap, h'.model.trans h.model,
    fun l hl => (h'.reason l (h.trail.subset hl)).trans (h.reason l hl), fun l hl hn => by
      by_cases e : l ∈ s'.trail
      · rw [h'.reason l e]; exact h.new l e hn
      · exact h'.new l hl e, h'.ams.trans h.ams, fun c => (h.am c).trans (h'.am c)⟩

/-! ## simple consequences -/

theorem Tr.false_iff {s : S} (h : Tr s) (l : Nat) : s.value l = some false ↔ neg l ∈ s.trail := by
  rw [value_false, h.tval]

theorem Tr.not_both {s : S} (h : Tr s) {l : Nat} (h1 : l ∈ s.trail) : neg l ∉ s.trail := by
  intro h2
  rw [← h.tval] at h1
  rw [← h.false_iff, h1] at h2
  cases h2

theorem mem_suffix {α : Type} {l : α} {t : List α} (h : l ∈ t) : ∃ rest, (l :: rest) <:+ t := by
  obtain ⟨a, b, rfl⟩ := List.append_of_mem h
  exact ⟨b, a, rfl⟩

theorem Tr.lev_le {s : S} (h : Tr s) {l : Nat} (hl : l ∈ s.trail) : s.level (l / 2) ≤ s.dl := by
  obtain ⟨rest, hr⟩ := mem_suffix hl
  rw [h.tlev l rest hr]
  exact List.length_filter_le _ _

theorem Tr.var_ne {s : S} (h : Tr s) {l x : Nat} (hv : s.value l = none) (hx : x ∈ s.trail) : x / 2 ≠ l / 2 := by
  intro e
  rw [← h.tval] at hx
  rw [value_none, ← e, ← value_none, hx] at hv
  cases hv

theorem proc_subset (s : S) {l : Nat} (h : l ∈ s.proc) : l ∈ s.trail := List.mem_of_mem_drop h

theorem Db.ab {s : S} (h : Db s) {c : Nat} (hc : c ∈ s.att) : (s.cls c).a ≠ (s.cls c).b := by
  have := h.clNodup c hc
  simp only [Cls.lits, List.nodup_cons, List.mem_cons, not_or] at this
  exact this.1.1

/-! ## enqueueing -/

theorem enqueue_proc (s : S) (l : Nat) (r : Option Nat) (h : s.qhead ≤ s.trail.length) : (enqueue s l r).proc = s.proc := by
  unfold S.proc enqueue
  dsimp only
  rw [List.length_cons, show s.trail.length + 1 - s.qhead = (s.trail.length - s.qhead) + 1 from by omega, List.drop_succ_cons]

theorem enqueue_level {s : S} (h : Tr s) {l : Nat} (hv : s.value l = none ∨ (s.value l = some true ∧ s.dl = 0)) (r : Option Nat) {x : Nat} (hx : x ∈ s.trail) :
    (enqueue s l r).level (x / 2) = s.level (x / 2) := by
  unfold enqueue
  dsimp only
  rcases hv with hv | ⟨_, hd⟩
  · exact upd_ne _ _ (h.var_ne hv hx)
  · unfold upd
    split
    · have := h.lev_le hx; omega
    · rfl

theorem Tr.enqueue {s : S} (h : Tr s) {l : Nat} {r : Option Nat} (hv : s.value l = none ∨ (s.value l = some true ∧ s.dl = 0)) (hn : l / 2 < s.nVars)
    (hr : 0 < s.dl → ReasonOk s r l s.trail)
    (hno : ∀ x ∈ s.trail, 0 < s.level (x / 2) → ∀ c, s.reason (x / 2) = some c → ∀ k, s.am c = some k → l ∉ k.lits)
    (hno' : ∀ c, r = some c → ∀ k, s.am c = some k → l ∉ k.lits) : Tr (enqueue s l r) := by
  have hrk : ∀ {r' x rest}, (∀ c, r' = some c → ∀ k, s.am c = some k → l ∉ k.lits) → ReasonOk s r' x rest → ReasonOk (Sat.enqueue s l r) r' x rest := by
    intro r' x rest h1 h2
    cases r' with
    | none => exact h2
    | some c =>
      refine ⟨h2.1, fun k hk => ?_⟩
      obtain ⟨a1, a2, a3, a4⟩ := h2.2 k hk
      refine ⟨a1, a2, a3, fun q hq hqt => ?_⟩
      rcases List.mem_cons.1 hqt with e | hqt
      · exact absurd (e ▸ hq) (h1 c rfl k hk)
      · exact a4 q hq hqt
  have hlev : (Sat.enqueue s l r).level (l / 2) = s.dl := upd_same _ _ _
  have hl := fun x hx => enqueue_level h hv r (x := x) hx
  have hneg : neg l ∉ s.trail := by
    rw [← h.false_iff]
    rcases hv with hv | ⟨hv, _⟩ <;> simp [hv]
  refine ⟨?_, ?_, ?_, ?_, ?_, h.tlimS, ?_, ?_, ?_⟩
  · intro x
    rw [value_enqueue]
    show _ ↔ x ∈ l :: s.trail
    rw [List.mem_cons]
    by_cases h1 : x = l
    · simp [h1]
    rw [if_neg h1]
    by_cases h2 : x = neg l
    · subst h2
      simp [neg_ne, hneg]
    rw [if_neg h2, h.tval]
    simp [h1]
  · intro x hx
    rcases List.mem_cons.1 hx with rfl | hx
    · exact hn
    · exact h.trange x hx
  · intro x rest hx
    rcases List.suffix_cons_iff.1 hx with e | hx
    · cases e
      rw [hlev]
      show s.trailLim.length = _
      rw [List.filter_eq_self.2]
      · rfl
      · intro y hy; simpa using h.tlimLe y hy
    · rw [hl x (hx.subset List.mem_cons_self)]
      exact h.tlev x rest hx
  · intro x rest hx hp
    rcases List.suffix_cons_iff.1 hx with e | hx
    · cases e
      rw [hlev] at hp
      rcases hv with hv | ⟨_, hd⟩
      · rw [← h.tval, hv]; simp
      · omega
    · rw [hl x (hx.subset List.mem_cons_self)] at hp
      exact h.tdup x rest hx hp
  · intro x rest hx hp
    rcases List.suffix_cons_iff.1 hx with e | hx
    · cases e
      rw [hlev] at hp
      have : (Sat.enqueue s l r).reason (l / 2) = r := upd_same _ _ _
      rw [this]
      exact hrk hno' (hr hp)
    · have hxm := hx.subset List.mem_cons_self
      rw [hl x hxm] at hp
      have : (Sat.enqueue s l r).reason (x / 2) = s.reason (x / 2) := by
        rcases hv with hv | ⟨_, hd⟩
        · exact upd_ne _ _ (h.var_ne hv hxm)
        · have := h.lev_le hxm; omega
      rw [this]
      exact hrk (hno x hxm hp) (h.treason x rest hx hp)
  · intro x hx
    have := h.tlimLe x hx
    show x ≤ s.trail.length + 1
    omega
  · intro v hvn hv0
    refine h.heapAll v hvn ?_
    by_cases e : v = l / 2
    · subst e
      rw [show (Sat.enqueue s l r).val (l / 2) = some (l % 2 == 0) from upd_same _ _ _] at hv0
      cases hv0
    · rw [show (Sat.enqueue s l r).val v = s.val v from upd_ne _ _ e] at hv0
      exact hv0
  · have := h.qle
    show s.qhead ≤ s.trail.length + 1
    omega

/-- a literal whose clause is false otherwise holds wherever the clause and the false literals do -/
theorem implied_lit {u : Nat → Bool} {c : List Nat} {l : Nat} (hc : Sat u c) (h : ∀ q ∈ c, q ≠ l → lv u (neg q) = true) : lv u l = true := by
  obtain ⟨q, hq, hv⟩ := hc
  by_cases e : q = l
  · exact e ▸ hv
  · have := h q hq e
    rw [lv_neg, hv] at this
    cases this

theorem enqueue_frame {s : S} (h : Tr s) {l : Nat} (hv : s.value l = none) (c : Nat) : Frame s (enqueue s l (some c)) :=
  ⟨rfl, rfl, rfl, rfl, rfl, rfl, rfl, rfl, rfl, rfl, fun _ => .refl _, fun _ => rfl, List.suffix_cons _ _, fun _ hx => enqueue_level h (Or.inl hv) _ hx, rfl, rfl,
    fun _ hx => upd_ne _ _ (h.var_ne hv hx), fun x hx hn => by
      rcases List.mem_cons.1 hx with rfl | hx
      · show upd s.reason (x / 2) (some c) (x / 2) ≠ none
        rw [upd_same]; simp
      · exact absurd hx hn, rfl, fun _ => .refl _⟩

theorem PI.to0 {Φ : (Nat → Bool) → Prop} {J : Nat → Prop} {s : S} {ex : Nat → Nat → Prop} (h : PI Φ J s ex) : PI0 Φ J s ex (fun _ => False) := ⟨h.d, h.t, h.m, h.q, h.w, h.a⟩

theorem PI0.enqueue {Φ : (Nat → Bool) → Prop} {J : Nat → Prop} {s : S} {ex : Nat → Nat → Prop} {exr : Nat → Prop} (h : PI0 Φ J s ex exr) {l : Nat} {r : Option Nat}
    (hv : s.value l = none ∨ (s.value l = some true ∧ s.dl = 0)) (hn : l / 2 < s.nVars)
    (hr : 0 < s.dl → ReasonOk s r l s.trail) (hi : s.dl = 0 → ∀ u, Φ u → lv u l = true) (hj : J l)
    (hx : ∀ c k, exr c → s.am c = some k → l ∉ k.lits) (hrx : ∀ c k, r = some c → s.am c = some k → exr c) : PI0 Φ J (enqueue s l r) ex exr := by
  have hno : ∀ x ∈ s.trail, 0 < s.level (x / 2) → ∀ c, s.reason (x / 2) = some c → ∀ k, s.am c = some k → l ∉ k.lits := by
    intro x hxt hlx c hrc k hk hlk
    by_cases e : exr c
    · exact hx c k e hk hlk
    · rcases hv with hv | ⟨_, hd⟩
      · rcases (h.a.full x hxt hlx c hrc k hk e l hlk).1 with h1 | h1
        · exact h.t.var_ne hv h1 rfl
        · exact h.t.var_ne hv h1 (neg_var l)
      · have := h.t.lev_le hxt; omega
  have hl := fun x hx => enqueue_level h.t hv r (x := x) hx
  have hlev : (Sat.enqueue s l r).level (l / 2) = s.dl := upd_same _ _ _
  refine ⟨⟨h.d.idlt, h.d.nodupAtt, h.d.clNodup, h.d.range, h.d.wNodup, h.d.wMem, h.d.wAll, h.d.bMem, h.d.bAll, h.d.seen0, h.d.wOne⟩, h.t.enqueue hv hn hr hno (fun c hc k hk => hx c k (hrx c k hc hk) hk), ⟨h.m.db, ?_, h.m.jcl, ?_⟩, ?_, ?_, ?_⟩
  · intro x hx hx0
    rcases List.mem_cons.1 hx with rfl | hx
    · rw [hlev] at hx0
      exact hi hx0
    · rw [hl x hx] at hx0
      exact h.m.imp0 x hx hx0
  · intro x hx
    rcases List.mem_cons.1 hx with rfl | hx
    · exact hj
    · exact h.m.jtr x hx
  · intro x rest hx hq
    rcases List.suffix_cons_iff.1 hx with e | hx
    · cases e; exact hlev
    · rw [hl x (hx.subset List.mem_cons_self)]
      exact h.q x rest hx hq
  · intro c hc w hw hp hex
    rw [enqueue_proc s l r h.t.qle] at hp
    obtain ⟨y, h1, h2, h3, h4⟩ := h.w c hc w hw hp hex
    refine ⟨y, h1, List.mem_cons_of_mem _ h2, ?_, h4⟩
    have := hl (neg w) (proc_subset s hp)
    rw [neg_var] at this
    rw [hl y h2, this]
    exact h3
  · obtain ⟨h1, h2, h3, h4, h5, h6, h7, h8, h9, h10, h11, h12, h13, h14, h15, h16⟩ := h.a
    refine ⟨h1, h2, h3, h4, h5, h6, h7, h8, h9, h10, h11, h12, h13, h14, ?_, ?_⟩
    · intro c hc k hk x hxk hp hex y hy hne
      rw [enqueue_proc s l r h.t.qle] at hp
      obtain ⟨g1, g2⟩ := h15 c hc k hk x hxk hp hex y hy hne
      refine ⟨List.mem_cons_of_mem _ g1, ?_⟩
      have := hl (neg y) g1
      rw [neg_var] at this
      rw [this, hl x (proc_subset s hp)]
      exact g2
    · intro x hxt hlx c hrc k hk hne q hq
      have hass : ∀ q, (q ∈ s.trail ∨ neg q ∈ s.trail) → (Sat.enqueue s l r).level (q / 2) = s.level (q / 2) := by
        rintro q (h | h)
        · exact hl q h
        · have := hl (neg q) h
          rwa [neg_var] at this
      rcases hv with hv | ⟨hv, hd⟩
      · rcases List.mem_cons.1 hxt with e | hxt
        · subst e
          have hrl : (Sat.enqueue s x r).reason (x / 2) = r := upd_same _ _ _
          rw [hrl] at hrc
          exact absurd (hrx c k hrc hk) hne
        · have hrl : (Sat.enqueue s l r).reason (x / 2) = s.reason (x / 2) := upd_ne _ _ (h.t.var_ne hv hxt)
          rw [hrl] at hrc
          rw [hl x hxt] at hlx ⊢
          obtain ⟨g1, g2⟩ := h16 x hxt hlx c hrc k hk hne q hq
          rw [hass q g1]
          exact ⟨g1.imp (List.mem_cons_of_mem _) (List.mem_cons_of_mem _), g2⟩
      · exfalso
        rcases List.mem_cons.1 hxt with e | hxt
        · subst e; omega
        · rw [hl x hxt] at hlx
          have := h.t.lev_le hxt; omega

theorem PI.enqueue {Φ : (Nat → Bool) → Prop} {J : Nat → Prop} {s : S} {ex : Nat → Nat → Prop} (h : PI Φ J s ex) {l : Nat} {r : Option Nat}
    (hv : s.value l = none ∨ (s.value l = some true ∧ s.dl = 0)) (hn : l / 2 < s.nVars)
    (hr : 0 < s.dl → ReasonOk s r l s.trail) (hi : s.dl = 0 → ∀ u, Φ u → lv u l = true) (hj : J l) (hrx : ∀ c, r = some c → s.am c = none) :
    PI Φ J (enqueue s l r) ex := by
  have h0 := h.to0.enqueue hv hn hr hi hj (fun _ _ h => h.elim) fun c k hc hk => by rw [hrx c hc] at hk; cases hk
  exact ⟨h0.d, h0.t, h0.m, h0.q, h0.w, h0.a⟩

/-- enqueueing with a clause as reason -/
theorem PI.enqueueC {Φ : (Nat → Bool) → Prop} {J : Nat → Prop} {s : S} {ex : Nat → Nat → Prop} (h : PI Φ J s ex) {l c : Nat} (hv : s.value l = none) (hc : c ∈ s.att)
    (hl : l ∈ (s.cls c).lits) (ha : (s.cls c).rest ≠ [] → (s.cls c).a = l) (hf : ∀ q ∈ (s.cls c).lits, q ≠ l → neg q ∈ s.trail) :
    PI Φ J (Sat.enqueue s l (some c)) ex := by
  refine h.enqueue (Or.inl hv) (h.d.range c hc l hl) (fun _ => ⟨fun _ => ⟨hc, hl, ha, hf⟩, fun k hk => by rw [h.a.att c hc] at hk; cases hk⟩) (fun hd u hu => ?_)
    (h.m.jcl c hc l hl fun q hq hne => h.m.jtr _ (hf q hq hne)) (fun c' e => by cases e; exact h.a.att c hc)
  refine implied_lit (h.m.db c hc u hu) fun q hq hne => ?_
  have hm := hf q hq hne
  exact h.m.imp0 _ hm (by have := h.t.lev_le hm; omega) u hu

/-! ## propagation -/

/-- a conflict: a clause with only false literals, or an at-most clause with too many true literals; one of them is of the current level -/
structure Confl (Φ : (Nat → Bool) → Prop) (J : Nat → Prop) (s : S) (c : Nat) : Prop where
  pi : PI Φ J s (fun _ w => s.level (w / 2) = s.dl)
  kind : (s.am c = none ∧ c ∈ s.att) ∨ (c ∈ s.ams ∧ ∃ k, s.am c = some k ∧ k.card < (k.lits.filter fun q => decide (q ∈ s.trail)).length)
  fls : ∀ q ∈ conflLits s c, neg q ∈ s.trail
  cur : ∃ q ∈ conflLits s c, s.level (q / 2) = s.dl

theorem conflLits_none {s : S} {c : Nat} (h : s.am c = none) : conflLits s c = (s.cls c).lits := by unfold conflLits; rw [h]

theorem conflLits_some {s : S} {c : Nat} {k : Am} (h : s.am c = some k) : conflLits s c = amTail s k := by unfold conflLits; rw [h]

theorem WProp.mono {s : S} {ex ex' : Nat → Nat → Prop} (h : WProp s ex) (hm : ∀ c ∈ s.att, ∀ w, (w = (s.cls c).a ∨ w = (s.cls c).b) → neg w ∈ s.proc → ex c w → ¬ ex' c w →
    ∃ y ∈ (s.cls c).lits, y ∈ s.trail ∧ s.level (y / 2) ≤ s.level (w / 2) ∧ ((s.cls c).rest ≠ [] → (c, y) ∈ s.watches (neg w))) : WProp s ex' := by
  intro c hc w hw hp hex
  by_cases e : ex c w
  · exact hm c hc w hw hp e hex
  · exact h c hc w hw hp e

theorem visitBin_spec {Φ : (Nat → Bool) → Prop} {J : Nat → Prop} {p : Nat} : ∀ (ws : List (Nat × Nat)) (s : S),
    PI Φ J s (fun c w => w = neg p ∧ (s.am c = none → (s.cls c).rest = [] → c ∈ ws.map Prod.fst)) → (∀ e ∈ ws, e ∈ s.watchesBin p) →
    p ∈ s.proc → s.level (p / 2) = s.dl →
    Frame s (visitBin s ws).1 ∧ (visitBin s ws).1.cls = s.cls ∧ (visitBin s ws).1.watches = s.watches ∧ (visitBin s ws).1.am = s.am ∧ p ∈ (visitBin s ws).1.proc ∧
    match (visitBin s ws).2 with
    | none => PI Φ J (visitBin s ws).1 (fun c w => w = neg p ∧ (s.am c = none → (s.cls c).rest ≠ []))
    | some c => Confl Φ J (visitBin s ws).1 c
  | [], s, h, _, hp, hl => by
    refine ⟨Frame.refl s, rfl, rfl, rfl, hp, h.d, h.t, h.m, h.q, h.w.mono ?_, h.a.mono ?_⟩
    · intro c hc w hw hpw he hne
      exact absurd ⟨he.1, fun e e' => by simpa using he.2 e e'⟩ hne
    · intro c hc k hk x hx hp he hne
      exact absurd ⟨he.1, fun e => by rw [hk] at e; cases e⟩ hne
  | (c, imp) :: ws, s, h, hsub, hp, hl => by
    have hb := h.d.bMem p c imp (hsub _ List.mem_cons_self)
    have hpt := proc_subset s hp
    have hmem : imp ∈ (s.cls c).lits ∧ ∀ q ∈ (s.cls c).lits, q ≠ imp → q = neg p := by
      obtain ⟨_, hr, hb⟩ := hb
      simp only [Cls.lits, hr, List.mem_cons, List.not_mem_nil, or_false]
      rcases hb with ⟨h1, h2⟩ | ⟨h1, h2⟩
      · subst h2; exact ⟨Or.inr rfl, fun q hq hne => by rcases hq with hq | hq; exact hq.trans h1.symm; exact absurd hq hne⟩
      · subst h2; exact ⟨Or.inl rfl, fun q hq hne => by rcases hq with hq | hq; exact absurd hq hne; exact hq.trans h1.symm⟩
    unfold visitBin
    cases hv : s.value imp with
    | some b =>
      cases b with
      | false =>
        dsimp only
        have hcm := h.a.att c hb.1
        refine ⟨Frame.refl s, rfl, rfl, rfl, hp, ⟨h.d, h.t, h.m, h.q, h.w.mono ?_, h.a.mono ?_⟩, Or.inl ⟨hcm, hb.1⟩, ?_, ?_⟩
        · intro c hc w hw hpw he hne
          refine absurd ?_ hne
          rw [he.1, neg_var]; exact hl
        · intro c hc k hk x hx hpx he hne
          refine absurd ?_ hne
          rw [he.1, neg_var]; exact hl
        · rw [conflLits_none hcm]
          intro q hq
          by_cases e : q = imp
          · subst e; exact (h.t.false_iff q).1 hv
          · rw [hmem.2 q hq e, neg_neg]; exact hpt
        · obtain ⟨_, hr, hb⟩ := hb
          rw [conflLits_none hcm]
          refine ⟨neg p, ?_, by rw [neg_var]; exact hl⟩
          rcases hb with ⟨h1, _⟩ | ⟨h1, _⟩ <;> rw [h1] <;> simp [Cls.lits]
      | true =>
        dsimp only
        refine visitBin_spec ws s ⟨h.d, h.t, h.m, h.q, h.w.mono ?_, h.a.mono fun c' hc k hk x hx hpx he hne => absurd ⟨he.1, fun e => by rw [hk] at e; cases e⟩ hne⟩
          (fun e he => hsub e (List.mem_cons_of_mem _ he)) hp hl
        intro c' hc w hw hpw he hne
        have hcc : c' = c := by
          by_contra hcc
          refine hne ⟨he.1, fun e e' => ?_⟩
          have := he.2 e e'
          simpa [hcc] using this
        subst hcc
        have him := (h.t.tval imp).1 hv
        refine ⟨imp, hmem.1, him, ?_, fun e => absurd hb.2.1 e⟩
        rw [he.1, neg_var, hl]
        exact h.t.lev_le him
    | none =>
      dsimp only
      have hpi := h.enqueueC hv hb.1 hmem.1 (fun e => absurd hb.2.1 e) fun q hq hne => by rw [hmem.2 q hq hne, neg_neg]; exact hpt
      have hpp : (enqueue s imp (some c)).proc = s.proc := enqueue_proc _ _ _ h.t.qle
      have hlp := enqueue_level h.t (Or.inl hv) (some c) hpt
      have ih := visitBin_spec (Φ := Φ) (J := J) (p := p) ws (enqueue s imp (some c)) ⟨hpi.d, hpi.t, hpi.m, hpi.q, hpi.w.mono ?_, hpi.a.mono fun c' hc k hk x hx hpx he hne => absurd ⟨he.1, fun e => by rw [show (enqueue s imp (some c)).am = s.am from rfl] at hk e; rw [hk] at e; cases e⟩ hne⟩
        (fun e he => hsub e (List.mem_cons_of_mem _ he)) (by rw [hpp]; exact hp) (by rw [hlp, hl]; rfl)
      · obtain ⟨h1, h2, h3, h4, h5, h6⟩ := ih
        exact ⟨(enqueue_frame h.t hv _).trans h1, h2, h3, h4, h5, h6⟩
      · intro c' hc w hw hpw he hne
        have hcc : c' = c := by
          by_contra hcc
          refine hne ⟨he.1, fun e e' => ?_⟩
          have := he.2 e e'
          simpa [hcc] using this
        subst hcc
        refine ⟨imp, hmem.1, List.mem_cons_self, ?_, fun e => absurd hb.2.1 e⟩
        rw [he.1, neg_var, hlp, hl]
        exact Nat.le_of_eq (upd_same _ _ _)

theorem findWatch_spec (s : S) : ∀ (r pre : List Nat),
    match findWatch s pre r with
    | none => ∀ q ∈ r, s.value q = some false
    | some (r1, q, r2) => pre ++ r = r1 ++ q :: r2 ∧ s.value q ≠ some false
  | [], pre => by simp [findWatch]
  | q :: r, pre => by
    unfold findWatch
    by_cases h : s.value q = some false
    · rw [if_pos h]
      have ih := findWatch_spec s r (pre ++ [q])
      cases h2 : findWatch s (pre ++ [q]) r with
      | none => rw [h2] at ih; simp only at ih ⊢; intro x hx; rcases List.mem_cons.1 hx with rfl | hx; exact h; exact ih x hx
      | some e =>
        obtain ⟨r1, x, r2⟩ := e
        rw [h2] at ih; simp only at ih ⊢
        rw [List.append_assoc] at ih
        exact ih
    · rw [if_neg h]
      exact ⟨rfl, h⟩

/-- the two watched literals are exchanged -/
def swapFalse (k : Cls) (fl : Nat) : Cls := if k.a = fl then { k with a := k.b, b := fl } else k

theorem swapFalse_spec {k : Cls} {fl : Nat} (hn : k.lits.Nodup) (h : fl = k.a ∨ fl = k.b) :
    (swapFalse k fl).b = fl ∧ (swapFalse k fl).a ≠ fl ∧ (swapFalse k fl).rest = k.rest ∧ (swapFalse k fl).learntOn = k.learntOn ∧
    (swapFalse k fl).lits.Perm k.lits ∧ ∀ w, (w = (swapFalse k fl).a ∨ w = (swapFalse k fl).b) ↔ (w = k.a ∨ w = k.b) := by
  have hab : k.a ≠ k.b := by
    simp only [Cls.lits, List.nodup_cons, List.mem_cons, not_or] at hn
    exact hn.1.1
  unfold swapFalse
  by_cases e : k.a = fl
  · rw [if_pos e]
    subst e
    refine ⟨rfl, fun h => hab h.symm, rfl, rfl, ?_, fun w => ?_⟩
    · exact List.Perm.swap _ _ _
    · exact Or.comm
  · rw [if_neg e]
    have : fl = k.b := by rcases h with h | h; exact absurd h.symm e; exact h
    exact ⟨this.symm, e, rfl, rfl, .refl _, fun _ => Iff.rfl⟩

/-- exchanging the watched literals of a clause found in the list of a true literal -/
theorem PI.swap {Φ : (Nat → Bool) → Prop} {J : Nat → Prop} {s : S} {ex : Nat → Nat → Prop} (h : PI Φ J s ex) {p c bl : Nat} (hw : (c, bl) ∈ s.watches p) (ham : s.am c = none) (hp : p ∈ s.trail) :
    PI Φ J { s with cls := upd s.cls c (swapFalse (s.cls c) (neg p)) } ex ∧ Frame s { s with cls := upd s.cls c (swapFalse (s.cls c) (neg p)) } := by
  obtain ⟨hc, hr, hab, hbl⟩ := h.d.wMem p c bl hw ham
  obtain ⟨k1, k2, k3, k4, k5, k6⟩ := swapFalse_spec (h.d.clNodup c hc) hab
  have hcls : ∀ x, ((upd s.cls c (swapFalse (s.cls c) (neg p)) x).lits.Perm (s.cls x).lits) ∧
      (upd s.cls c (swapFalse (s.cls c) (neg p)) x).rest = (s.cls x).rest ∧
      (upd s.cls c (swapFalse (s.cls c) (neg p)) x).learntOn = (s.cls x).learntOn ∧
      ∀ w, (w = (upd s.cls c (swapFalse (s.cls c) (neg p)) x).a ∨ w = (upd s.cls c (swapFalse (s.cls c) (neg p)) x).b) ↔ (w = (s.cls x).a ∨ w = (s.cls x).b) := by
    intro x
    by_cases e : x = c
    · subst e; rw [upd_same]; exact ⟨k5, k3, k4, k6⟩
    · rw [upd_ne _ _ e]; exact ⟨.refl _, rfl, rfl, fun _ => Iff.rfl⟩
  have hbin : ∀ x, (s.cls x).rest = [] → upd s.cls c (swapFalse (s.cls c) (neg p)) x = s.cls x := by
    intro x hx
    by_cases e : x = c
    · subst e; exact absurd hx hr
    · exact upd_ne _ _ e
  refine ⟨⟨?_, ?_, ?_, h.q, ?_, h.a.congr rfl⟩, ?_⟩
  · refine ⟨h.d.idlt, h.d.nodupAtt, ?_, ?_, h.d.wNodup, ?_, ?_, ?_, ?_, h.d.seen0, ?_⟩
    · intro x hx; exact (hcls x).1.nodup_iff.2 (h.d.clNodup x hx)
    · intro x hx l hl; exact h.d.range x hx l ((hcls x).1.mem_iff.1 hl)
    · intro l x b hb hxm
      obtain ⟨h1, h2, h3, h4⟩ := h.d.wMem l x b hb hxm
      refine ⟨h1, ?_, ((hcls x).2.2.2 _).2 h3, (hcls x).1.mem_iff.2 h4⟩
      show (upd s.cls c (swapFalse (s.cls c) (neg p)) x).rest ≠ []
      rw [(hcls x).2.1]; exact h2
    · intro x hx hrx w hwx
      exact h.d.wAll x hx (by rw [← (hcls x).2.1]; exact hrx) w (((hcls x).2.2.2 w).1 hwx)
    · intro l x b hb
      obtain ⟨h1, h2, h3⟩ := h.d.bMem l x b hb
      show x ∈ s.att ∧ (upd s.cls c (swapFalse (s.cls c) (neg p)) x).rest = [] ∧ _
      dsimp only
      rw [hbin x h2]
      exact ⟨h1, h2, h3⟩
    · intro x hx hrx w hwx
      exact h.d.bAll x hx (by rw [← (hcls x).2.1]; exact hrx) w (((hcls x).2.2.2 w).1 hwx)
    · intro x hx hrx
      have h1 := h.d.wOne x hx (by rw [← (hcls x).2.1]; exact hrx)
      show (x, (upd s.cls c (swapFalse (s.cls c) (neg p)) x).b) ∈ s.watches (neg (upd s.cls c (swapFalse (s.cls c) (neg p)) x).a) ∨
        (x, (upd s.cls c (swapFalse (s.cls c) (neg p)) x).a) ∈ s.watches (neg (upd s.cls c (swapFalse (s.cls c) (neg p)) x).b)
      by_cases e : x = c
      · subst e
        rw [upd_same]
        unfold swapFalse
        split
        · rename_i e
          rw [← e]
          exact h1.symm
        · exact h1
      · rw [upd_ne _ _ e]; exact h1
  · refine ⟨h.t.tval, h.t.trange, h.t.tlev, h.t.tdup, ?_, h.t.tlimS, h.t.tlimLe, h.t.heapAll, h.t.qle⟩
    intro l rest hl hlev
    have h1 := h.t.treason l rest hl hlev
    show ReasonOk _ (s.reason (l / 2)) l rest
    cases hrs : s.reason (l / 2) with
    | none => rw [hrs] at h1; exact h1
    | some x =>
      rw [hrs] at h1
      refine ⟨fun hxm => ?_, h1.2⟩
      obtain ⟨a1, a2, a3, a4⟩ := h1.1 hxm
      refine ⟨a1, (hcls x).1.mem_iff.2 a2, ?_, fun q hq => a4 q ((hcls x).1.mem_iff.1 hq)⟩
      intro hrx
      have hrx' : (s.cls x).rest ≠ [] := by rw [← (hcls x).2.1]; exact hrx
      by_cases e : x = c
      · subst e
        show (upd s.cls x (swapFalse (s.cls x) (neg p)) x).a = l
        rw [upd_same]
        unfold swapFalse
        have a3' := a3 hrx'
        rw [if_neg]
        · exact a3'
        · rw [a3']
          intro e
          have : l ∈ s.trail := hl.subset List.mem_cons_self
          rw [e] at this
          exact h.t.not_both hp this
      · show (upd s.cls c (swapFalse (s.cls c) (neg p)) x).a = l
        rw [upd_ne _ _ e]
        exact a3 hrx'
  · exact ⟨fun x hx u hu => by
      obtain ⟨l, hl, hv⟩ := h.m.db x hx u hu
      exact ⟨l, (hcls x).1.mem_iff.2 hl, hv⟩, h.m.imp0, fun x hx l hl hq => h.m.jcl x hx l ((hcls x).1.mem_iff.1 hl) fun q hq' => hq q ((hcls x).1.mem_iff.2 hq'), h.m.jtr⟩
  · intro x hx w hwx hpw hex
    obtain ⟨y, h1, h2, h3, h4⟩ := h.w x hx w (((hcls x).2.2.2 w).1 hwx) hpw hex
    exact ⟨y, (hcls x).1.mem_iff.2 h1, h2, h3, fun e => h4 (by rw [← (hcls x).2.1]; exact e)⟩
  · exact ⟨rfl, rfl, rfl, rfl, rfl, rfl, rfl, rfl, rfl, rfl, fun x => (hcls x).1, fun x => (hcls x).2.2.1, List.suffix_refl _, fun _ _ => rfl, rfl, rfl, fun _ _ => rfl, fun _ h hn => absurd h hn, rfl, fun _ => .refl _⟩

/-- other watcher lists -/
theorem AmI.watches {Φ : (Nat → Bool) → Prop} {J : Nat → Prop} {s : S} {ex : Nat → Nat → Prop} {exr : Nat → Prop} (h : AmI Φ J s ex exr) {W : Nat → List (Nat × Nat)}
    (h1 : ∀ l c b k, (c, b) ∈ W l → s.am c = some k → c ∈ (s.watches l).map Prod.fst)
    (h2 : ∀ l c k, s.am c = some k → c ∈ (s.watches l).map Prod.fst → c ∈ (W l).map Prod.fst) : AmI Φ J { s with watches := W } ex exr := by
  refine ⟨h.idlt, h.new, h.nd, h.isam, h.att, h.bin, h.nodup, h.pos, h.range, h.two, ?_, ?_, h.sem, h.jcl, h.w, h.full⟩
  · intro l c b k hm hk
    obtain ⟨⟨c', b'⟩, hm', e⟩ := List.mem_map.1 (h1 l c b k hm hk)
    dsimp only at e
    subst e
    exact h.wm l c' b' k hm' hk
  · intro c hc k hk x hx
    exact h2 x c k hk (h.wa c hc k hk x hx)

/-- a new blocker in a watcher -/
theorem PI.blocker {Φ : (Nat → Bool) → Prop} {J : Nat → Prop} {s : S} {ex : Nat → Nat → Prop} (h : PI Φ J s ex) {p c bl x : Nat} {kept todo : List (Nat × Nat)}
    (hw : s.watches p = kept ++ (c, bl) :: todo) (ham : s.am c = none) (hx : x ∈ (s.cls c).lits) (hb : (s.cls c).b = neg p) (hxa : x = (s.cls c).a) (hex : ex c (neg p)) :
    PI Φ J { s with watches := upd s.watches p (kept ++ [(c, x)] ++ todo) } ex := by
  have hfst : ∀ l, (upd s.watches p (kept ++ [(c, x)] ++ todo) l).map Prod.fst = (s.watches l).map Prod.fst := by
    intro l
    by_cases e : l = p
    · subst e; rw [upd_same, hw]; simp
    · rw [upd_ne _ _ e]
  have hold : ∀ l y b, (y, b) ∈ s.watches l → (y, l) ≠ (c, p) → (y, b) ∈ upd s.watches p (kept ++ [(c, x)] ++ todo) l := by
    intro l y b hm hne
    by_cases e : l = p
    · subst e
      have : y ≠ c := by rintro rfl; exact hne rfl
      rw [hw] at hm
      rw [upd_same]
      simpa [this] using hm
    · rw [upd_ne _ _ e]; exact hm
  refine ⟨⟨h.d.idlt, h.d.nodupAtt, h.d.clNodup, h.d.range, ?_, ?_, ?_, h.d.bMem, h.d.bAll, h.d.seen0, ?_⟩, ⟨h.t.tval, h.t.trange, h.t.tlev, h.t.tdup, h.t.treason,
    h.t.tlimS, h.t.tlimLe, h.t.heapAll, h.t.qle⟩, ⟨h.m.db, h.m.imp0, h.m.jcl, h.m.jtr⟩, h.q, ?_, h.a.watches (fun l y b k hm hk => by rw [← hfst l]; exact List.mem_map.2 ⟨_, hm, rfl⟩)
      (fun l y k hk hm => by rw [hfst l]; exact hm)⟩
  · intro l
    show ((upd s.watches p (kept ++ [(c, x)] ++ todo) l).map Prod.fst).Nodup
    rw [hfst]; exact h.d.wNodup l
  · intro l y b hb hym
    have hb : (y, b) ∈ upd s.watches p (kept ++ [(c, x)] ++ todo) l := hb
    by_cases e : l = p
    · subst e
      rw [upd_same] at hb
      have hmem : ∀ y b, (y, b) ∈ kept ∨ (y, b) = (c, bl) ∨ (y, b) ∈ todo → (y, b) ∈ s.watches l := by
        intro y b h; rw [hw]; simpa using h
      simp only [List.mem_append, List.mem_cons, List.not_mem_nil, or_false] at hb
      rcases hb with (hb | hb) | hb
      · exact h.d.wMem l y b (hmem y b (Or.inl hb)) hym
      · cases hb
        obtain ⟨h1, h2, h3, _⟩ := h.d.wMem l c bl (hmem c bl (Or.inr (Or.inl rfl))) ham
        exact ⟨h1, h2, h3, hx⟩
      · exact h.d.wMem l y b (hmem y b (Or.inr (Or.inr hb))) hym
    · rw [upd_ne _ _ e] at hb
      exact h.d.wMem l y b hb hym
  · intro y hy hr w hwy
    show y ∈ (upd s.watches p (kept ++ [(c, x)] ++ todo) (neg w)).map Prod.fst
    rw [hfst]; exact h.d.wAll y hy hr w hwy
  · intro y hy hr
    by_cases e : y = c
    · subst e
      refine Or.inr ?_
      show (y, (s.cls y).a) ∈ upd s.watches p (kept ++ [(y, x)] ++ todo) (neg (s.cls y).b)
      rw [hb, neg_neg, upd_same, hxa]
      simp
    · rcases h.d.wOne y hy hr with h1 | h1
      · exact Or.inl (hold _ _ _ h1 fun e2 => e (Prod.mk.inj e2).1)
      · exact Or.inr (hold _ _ _ h1 fun e2 => e (Prod.mk.inj e2).1)
  · intro y hy w hwy hpw hexy
    obtain ⟨z, h1, h2, h3, h4⟩ := h.w y hy w hwy hpw hexy
    refine ⟨z, h1, h2, h3, fun hr => hold _ _ _ (h4 hr) fun e => ?_⟩
    obtain ⟨e1, e2⟩ := Prod.mk.inj e
    subst e1
    rw [neg_comm.1 e2] at hexy
    exact hexy hex

/-- another literal is watched -/
theorem PI.move {Φ : (Nat → Bool) → Prop} {J : Nat → Prop} {s : S} {p c bl q : Nat} {r1 r2 : List Nat} {kept todo : List (Nat × Nat)}
    (h : PI Φ J s (fun c' w => w = neg p ∧ c' ∈ ((c, bl) :: todo).map Prod.fst))
    (hw : s.watches p = kept ++ (c, bl) :: todo) (ham : s.am c = none) (hb : (s.cls c).b = neg p) (hr : (s.cls c).rest = r1 ++ q :: r2) (hq : s.value q ≠ some false)
    (hat : s.value (s.cls c).a ≠ some true) :
    PI Φ J { s with
            cls := upd s.cls c { s.cls c with b := q, rest := r1 ++ neg p :: r2 }
            watches := upd (upd s.watches p (kept ++ todo)) (neg q) (upd s.watches p (kept ++ todo) (neg q) ++ [(c, (s.cls c).a)]) }
      (fun c' w => w = neg p ∧ c' ∈ todo.map Prod.fst) ∧
    Frame s { s with
            cls := upd s.cls c { s.cls c with b := q, rest := r1 ++ neg p :: r2 }
            watches := upd (upd s.watches p (kept ++ todo)) (neg q) (upd s.watches p (kept ++ todo) (neg q) ++ [(c, (s.cls c).a)]) } := by
  obtain ⟨hc, hrne, hab, hbl⟩ := h.d.wMem p c bl (by rw [hw]; simp) ham
  have hnd := h.d.clNodup c hc
  have hlits : (s.cls c).lits = (s.cls c).a :: neg p :: (r1 ++ q :: r2) := by simp only [Cls.lits, hb, hr]
  have hperm : (Cls.lits { s.cls c with b := q, rest := r1 ++ neg p :: r2 }).Perm (s.cls c).lits := by
    rw [hlits]
    show ((s.cls c).a :: q :: (r1 ++ neg p :: r2)).Perm _
    refine List.Perm.cons _ ?_
    have h1 : (q :: (r1 ++ neg p :: r2)).Perm (q :: neg p :: (r1 ++ r2)) := List.Perm.cons _ List.perm_middle
    have h2 : (neg p :: (r1 ++ q :: r2)).Perm (neg p :: q :: (r1 ++ r2)) := List.Perm.cons _ List.perm_middle
    exact h1.trans ((List.Perm.swap _ _ _).trans h2.symm)
  rw [hlits] at hnd
  simp only [List.nodup_cons, List.mem_cons, List.mem_append, not_or] at hnd
  obtain ⟨⟨n1, n2⟩, ⟨n3, n4⟩, n5⟩ := hnd
  have hqa : q ≠ (s.cls c).a := fun e => n2.2.1 e.symm
  have hqp : q ≠ neg p := fun e => n4.1 e.symm
  have hnp : neg q ≠ p := fun e => hqp (neg_comm.1 e)
  have hcls : ∀ x, (upd s.cls c { s.cls c with b := q, rest := r1 ++ neg p :: r2 } x).lits.Perm (s.cls x).lits := by
    intro x
    by_cases e : x = c
    · subst e; rw [upd_same]; exact hperm
    · rw [upd_ne _ _ e]
  have hrest : ∀ x, (upd s.cls c { s.cls c with b := q, rest := r1 ++ neg p :: r2 } x).rest = [] ↔ (s.cls x).rest = [] := by
    intro x
    by_cases e : x = c
    · subst e; rw [upd_same]; simp [hr]
    · rw [upd_ne _ _ e]
  have ha : ∀ x, (upd s.cls c { s.cls c with b := q, rest := r1 ++ neg p :: r2 } x).a = (s.cls x).a := by
    intro x
    by_cases e : x = c
    · subst e; rw [upd_same]
    · rw [upd_ne _ _ e]
  -- the watcher lists
  have hwp := h.d.wNodup p
  rw [hw] at hwp
  have hcn : c ∉ (kept ++ todo).map Prod.fst := by
    simp only [List.map_append, List.map_cons] at hwp
    have := (List.perm_middle (l₁ := kept.map Prod.fst) (a := c) (l₂ := todo.map Prod.fst)).nodup_iff.1 hwp
    rw [List.nodup_cons] at this
    simpa using this.1
  have hsub : ((kept ++ todo).map Prod.fst).Nodup := by
    simp only [List.map_append, List.map_cons] at hwp
    have := (List.perm_middle (l₁ := kept.map Prod.fst) (a := c) (l₂ := todo.map Prod.fst)).nodup_iff.1 hwp
    rw [List.nodup_cons] at this
    simpa using this.2
  have hwmem : ∀ l e, e ∈ upd (upd s.watches p (kept ++ todo)) (neg q) (upd s.watches p (kept ++ todo) (neg q) ++ [(c, (s.cls c).a)]) l →
      (l = neg q ∧ e = (c, (s.cls c).a)) ∨ (e ∈ s.watches l ∧ (l = p → e ∈ kept ++ todo)) := by
    intro l e he
    by_cases e1 : l = neg q
    · subst e1
      rw [upd_same, upd_ne _ _ hnp] at he
      rcases List.mem_append.1 he with he | he
      · exact Or.inr ⟨he, fun e => absurd e hnp⟩
      · exact Or.inl ⟨rfl, by simpa using he⟩
    · rw [upd_ne _ _ e1] at he
      by_cases e2 : l = p
      · subst e2
        rw [upd_same] at he
        refine Or.inr ⟨?_, fun _ => he⟩
        rw [hw]
        rcases List.mem_append.1 he with he | he <;> simp [he]
      · rw [upd_ne _ _ e2] at he
        exact Or.inr ⟨he, fun e => absurd e e2⟩
  have hcne : ∀ l b, (c, b) ∈ s.watches l → (l = p → (c, b) ∈ kept ++ todo) → neg l = (s.cls c).a := by
    intro l b hcb hlp
    obtain ⟨_, _, h3, _⟩ := h.d.wMem l c b hcb ham
    rcases h3 with h3 | h3
    · exact h3
    · rw [hb] at h3
      have := neg_inj h3
      exact absurd (List.mem_map.2 ⟨_, hlp this, rfl⟩) hcn
  have hold : ∀ l y b, (y, b) ∈ s.watches l → y ≠ c ∨ l ≠ p →
      (y, b) ∈ upd (upd s.watches p (kept ++ todo)) (neg q) (upd s.watches p (kept ++ todo) (neg q) ++ [(c, (s.cls c).a)]) l := by
    intro l y b hm hne
    have h1 : (y, b) ∈ upd s.watches p (kept ++ todo) l := by
      by_cases e : l = p
      · subst e
        have : y ≠ c := by rcases hne with h | h; exact h; exact absurd rfl h
        rw [hw] at hm
        rw [upd_same]
        simpa [this] using hm
      · rw [upd_ne _ _ e]; exact hm
    by_cases e : l = neg q
    · subst e; rw [upd_same]; exact List.mem_append_left _ h1
    · rw [upd_ne _ _ e]; exact h1
  refine ⟨⟨?_, ?_, ?_, h.q, ?_, ?_⟩, ?_⟩
  · refine ⟨h.d.idlt, h.d.nodupAtt, ?_, ?_, ?_, ?_, ?_, ?_, ?_, h.d.seen0, ?_⟩
    · intro x hx; exact (hcls x).nodup_iff.2 (h.d.clNodup x hx)
    · intro x hx l hl; exact h.d.range x hx l ((hcls x).mem_iff.1 hl)
    · intro l
      show ((upd (upd s.watches p (kept ++ todo)) (neg q) (upd s.watches p (kept ++ todo) (neg q) ++ [(c, (s.cls c).a)]) l).map Prod.fst).Nodup
      by_cases e1 : l = neg q
      · subst e1
        rw [upd_same, upd_ne _ _ hnp, List.map_append, List.nodup_append]
        refine ⟨h.d.wNodup _, by simp, ?_⟩
        intro x hx y hy
        simp only [List.map_cons, List.map_nil, List.mem_singleton] at hy
        subst hy
        rintro rfl
        obtain ⟨⟨x, b⟩, hm, rfl⟩ := List.mem_map.1 hx
        obtain ⟨_, _, h3, _⟩ := h.d.wMem _ x b hm ham
        rw [neg_neg, hb] at h3
        rcases h3 with h3 | h3
        · exact hqa h3
        · exact hqp h3
      · rw [upd_ne _ _ e1]
        by_cases e2 : l = p
        · subst e2; rw [upd_same]; exact hsub
        · rw [upd_ne _ _ e2]; exact h.d.wNodup l
    · intro l x b hxb hxm
      rcases hwmem l (x, b) hxb with ⟨rfl, e⟩ | ⟨he, hlp⟩
      · cases e
        refine ⟨hc, fun e => hrne ((hrest c).1 e), ?_, ?_⟩
        · dsimp only; rw [neg_neg, upd_same]; exact Or.inr rfl
        · exact (hcls c).mem_iff.2 (by simp [Cls.lits])
      · obtain ⟨h1, h2, h3, h4⟩ := h.d.wMem l x b he hxm
        refine ⟨h1, fun e => h2 ((hrest x).1 e), ?_, (hcls x).mem_iff.2 h4⟩
        by_cases e : x = c
        · subst e
          dsimp only
          rw [ha x]
          exact Or.inl (hcne l b he hlp)
        · dsimp only
          rw [upd_ne _ _ e]; exact h3
    · intro x hx hrx w hwx
      show x ∈ (upd (upd s.watches p (kept ++ todo)) (neg q) (upd s.watches p (kept ++ todo) (neg q) ++ [(c, (s.cls c).a)]) (neg w)).map Prod.fst
      have hrx' : (s.cls x).rest ≠ [] := fun e => hrx ((hrest x).2 e)
      by_cases e : x = c
      · subst e
        dsimp only at hwx
        rw [upd_same] at hwx
        dsimp only at hwx
        by_cases e1 : w = q
        · subst e1; rw [upd_same]; simp
        · have hwa : w = (s.cls x).a := by rcases hwx with hwx | hwx; exact hwx; exact absurd hwx e1
          have h1 := h.d.wAll x hx hrx' w (Or.inl hwa)
          have : neg w ≠ p := by
            intro e
            apply n1
            rw [← hwa, ← e, neg_neg]
          rw [upd_ne _ _ (fun e => e1 (neg_inj e)), upd_ne _ _ this]
          exact h1
      · have hwx' : w = (s.cls x).a ∨ w = (s.cls x).b := by
          dsimp only at hwx
          rw [upd_ne _ _ e] at hwx; exact hwx
        have h1 := h.d.wAll x hx hrx' w hwx'
        by_cases e1 : neg w = neg q
        · rw [e1, upd_same, upd_ne _ _ hnp, List.map_append, List.mem_append]
          rw [e1] at h1
          exact Or.inl h1
        · rw [upd_ne _ _ e1]
          by_cases e2 : neg w = p
          · rw [e2, upd_same]
            rw [e2, hw] at h1
            simp only [List.map_append, List.map_cons, List.mem_append, List.mem_cons] at h1 ⊢
            rcases h1 with h1 | h1 | h1
            · exact Or.inl h1
            · exact absurd h1 e
            · exact Or.inr h1
          · rw [upd_ne _ _ e2]; exact h1
    · intro l x b hb
      obtain ⟨h1, h2, h3⟩ := h.d.bMem l x b hb
      have e : x ≠ c := by rintro rfl; exact hrne h2
      dsimp only
      rw [upd_ne _ _ e]
      exact ⟨h1, h2, h3⟩
    · intro x hx hrx w hwx
      have hrx' := (hrest x).1 hrx
      have e : x ≠ c := by rintro rfl; exact hrne hrx'
      dsimp only at hwx
      rw [upd_ne _ _ e] at hwx
      exact h.d.bAll x hx hrx' w hwx
    · intro x hx hrx
      have hrx' : (s.cls x).rest ≠ [] := fun e => hrx ((hrest x).2 e)
      show (x, (upd s.cls c { s.cls c with b := q, rest := r1 ++ neg p :: r2 } x).b) ∈ upd (upd s.watches p (kept ++ todo)) (neg q) (upd s.watches p (kept ++ todo) (neg q) ++ [(c, (s.cls c).a)]) (neg (upd s.cls c { s.cls c with b := q, rest := r1 ++ neg p :: r2 } x).a) ∨
        (x, (upd s.cls c { s.cls c with b := q, rest := r1 ++ neg p :: r2 } x).a) ∈ upd (upd s.watches p (kept ++ todo)) (neg q) (upd s.watches p (kept ++ todo) (neg q) ++ [(c, (s.cls c).a)]) (neg (upd s.cls c { s.cls c with b := q, rest := r1 ++ neg p :: r2 } x).b)
      by_cases e : x = c
      · subst e
        rw [upd_same]
        refine Or.inr ?_
        dsimp only
        rw [upd_same]
        simp
      · rw [upd_ne _ _ e]
        rcases h.d.wOne x hx hrx' with h1 | h1
        · exact Or.inl (hold _ _ _ h1 (Or.inl e))
        · exact Or.inr (hold _ _ _ h1 (Or.inl e))
  · refine ⟨h.t.tval, h.t.trange, h.t.tlev, h.t.tdup, ?_, h.t.tlimS, h.t.tlimLe, h.t.heapAll, h.t.qle⟩
    intro l rest hl hlev
    have h1 := h.t.treason l rest hl hlev
    show ReasonOk _ (s.reason (l / 2)) l rest
    cases hrs : s.reason (l / 2) with
    | none => rw [hrs] at h1; exact h1
    | some x =>
      rw [hrs] at h1
      refine ⟨fun hxm => ?_, h1.2⟩
      obtain ⟨a1, a2, a3, a4⟩ := h1.1 hxm
      refine ⟨a1, (hcls x).mem_iff.2 a2, ?_, fun q hq => a4 q ((hcls x).mem_iff.1 hq)⟩
      intro hrx
      exact (ha x).trans (a3 fun e => hrx ((hrest x).2 e))
  · exact ⟨fun x hx u hu => by
      obtain ⟨l, hl, hv⟩ := h.m.db x hx u hu
      exact ⟨l, (hcls x).mem_iff.2 hl, hv⟩, h.m.imp0, fun x hx l hl hq => h.m.jcl x hx l ((hcls x).mem_iff.1 hl) fun q hq' => hq q ((hcls x).mem_iff.2 hq'), h.m.jtr⟩
  · intro x hx w hwx hpw hex
    by_cases e : x = c
    · subst e
      dsimp only at hwx
      rw [upd_same] at hwx
      dsimp only at hwx
      rcases hwx with hwx | hwx
      · obtain ⟨y, h1, h2, h3, h4⟩ := h.w x hx w (Or.inl hwx) hpw fun e => n1 (hwx ▸ e.1)
        exact ⟨y, (hcls x).mem_iff.2 h1, h2, h3, fun _ => hold _ _ _ (h4 hrne) (Or.inr fun e => n1 (hwx ▸ neg_comm.1 e))⟩
      · subst hwx
        exact absurd ((h.t.false_iff w).2 (proc_subset s hpw)) hq
    · dsimp only at hwx
      rw [upd_ne _ _ e] at hwx
      obtain ⟨y, h1, h2, h3, h4⟩ := h.w x hx w hwx hpw fun he => hex ⟨he.1, by
        have := he.2
        simp only [List.map_cons, List.mem_cons] at this
        rcases this with h | h
        · exact absurd h e
        · exact h⟩
      exact ⟨y, (hcls x).mem_iff.2 h1, h2, h3, fun hr => hold _ _ _ (h4 fun e => hr ((hrest x).2 e)) (Or.inl e)⟩
  · have h1 : AmI Φ J s (fun c' w => w = neg p ∧ c' ∈ todo.map Prod.fst) (fun _ => False) := h.a.mono fun c' hc' k hk x hx hpx he hne => by
      refine absurd ⟨he.1, ?_⟩ hne
      have := he.2
      simp only [List.map_cons, List.mem_cons] at this
      rcases this with e | e
      · rw [e, ham] at hk; cases hk
      · exact e
    refine (h1.watches (W := upd (upd s.watches p (kept ++ todo)) (neg q) (upd s.watches p (kept ++ todo) (neg q) ++ [(c, (s.cls c).a)])) ?_ ?_).congr rfl
    · intro l c' b k hm hk
      rcases hwmem l (c', b) hm with ⟨_, e⟩ | ⟨he, _⟩
      · cases e; rw [ham] at hk; cases hk
      · exact List.mem_map.2 ⟨_, he, rfl⟩
    · intro l c' k hk hm
      obtain ⟨⟨c1, b1⟩, hm', e⟩ := List.mem_map.1 hm
      cases e
      exact List.mem_map.2 ⟨_, hold l c1 b1 hm' (Or.inl fun e => by rw [e, ham] at hk; cases hk), rfl⟩
  · exact ⟨rfl, rfl, rfl, rfl, rfl, rfl, rfl, rfl, rfl, rfl, hcls, fun x => by
      show (upd s.cls c _ x).learntOn = _
      by_cases e : x = c
      · subst e; rw [upd_same]
      · rw [upd_ne _ _ e], List.suffix_refl _, fun _ _ => rfl, rfl, rfl, fun _ _ => rfl, fun _ h hn => absurd h hn, rfl, fun _ => .refl _⟩

theorem upd_self {β : Type} (f : Nat → β) {k : Nat} {b : β} (h : f k = b) : upd f k b = f := by
  funext x
  unfold upd
  split
  · rename_i e; rw [e]; exact h.symm
  · rfl

theorem frame_watches (s : S) (w : Nat → List (Nat × Nat)) : Frame s { s with watches := w } :=
  ⟨rfl, rfl, rfl, rfl, rfl, rfl, rfl, rfl, rfl, rfl, fun _ => .refl _, fun _ => rfl, List.suffix_refl _, fun _ _ => rfl, rfl, rfl, fun _ _ => rfl, fun _ h hn => absurd h hn, rfl, fun _ => .refl _⟩

theorem frame_qhead (s : S) (n : Nat) : Frame s { s with qhead := n } :=
  ⟨rfl, rfl, rfl, rfl, rfl, rfl, rfl, rfl, rfl, rfl, fun _ => .refl _, fun _ => rfl, List.suffix_refl _, fun _ _ => rfl, rfl, rfl, fun _ _ => rfl, fun _ h hn => absurd h hn, rfl, fun _ => .refl _⟩

/-- a clause has been dealt with -/
theorem PI.done {Φ : (Nat → Bool) → Prop} {J : Nat → Prop} {s : S} {p c bl y : Nat} {todo : List (Nat × Nat)}
    (h : PI Φ J s (fun c' w => w = neg p ∧ c' ∈ ((c, bl) :: todo).map Prod.fst)) (ham : s.am c = none) (hl : s.level (p / 2) = s.dl)
    (hy : y ∈ (s.cls c).lits) (ht : y ∈ s.trail) (hin : (c, y) ∈ s.watches p) : PI Φ J s (fun c' w => w = neg p ∧ c' ∈ todo.map Prod.fst) := by
  refine ⟨h.d, h.t, h.m, h.q, h.w.mono ?_, h.a.mono fun c' hc' k hk x hx hpx he hne => by
      refine absurd ⟨he.1, ?_⟩ hne
      have := he.2
      simp only [List.map_cons, List.mem_cons] at this
      rcases this with e | e
      · rw [e, ham] at hk; cases hk
      · exact e⟩
  intro c' hc w hw hpw he hne
  have hcc : c' = c := by
    by_contra hcc
    refine hne ⟨he.1, ?_⟩
    have := he.2
    simpa [hcc] using this
  subst hcc
  refine ⟨y, hy, ht, ?_, fun _ => by rw [he.1, neg_neg]; exact hin⟩
  rw [he.1, neg_var, hl]
  exact h.t.lev_le ht

/-! ### at-most clauses -/

theorem findNotTrue_spec (s : S) : ∀ (r pre : List Nat),
    match findNotTrue s pre r with
    | none => ∀ q ∈ r, s.value q = some true
    | some (r1, q, r2) => pre ++ r = r1 ++ q :: r2 ∧ s.value q ≠ some true
  | [], pre => by simp [findNotTrue]
  | q :: r, pre => by
    unfold findNotTrue
    by_cases h : s.value q = some true
    · rw [if_pos h]
      have ih := findNotTrue_spec s r (pre ++ [q])
      cases h2 : findNotTrue s (pre ++ [q]) r with
      | none => rw [h2] at ih; simp only at ih ⊢; intro x hx; rcases List.mem_cons.1 hx with rfl | hx; exact h; exact ih x hx
      | some e =>
        obtain ⟨r1, x, r2⟩ := e
        rw [h2] at ih; simp only at ih ⊢
        rw [List.append_assoc] at ih
        exact ih
    · rw [if_neg h]
      exact ⟨rfl, h⟩

theorem filter_two {P : Nat → Bool} {L : List Nat} {x y : Nat} (hx : x ∈ L) (hy : y ∈ L) (hne : y ≠ x) (h1 : P x = false) (h2 : P y = false) :
    (L.filter P).length + 2 ≤ L.length := by
  have h3 : ([x, y]).length ≤ (L.filter fun z => !P z).length :=
    (List.subperm_of_subset (by simp [hne.symm]) (by
      intro z hz
      simp only [List.mem_cons, List.not_mem_nil, or_false] at hz
      rw [List.mem_filter]
      rcases hz with rfl | rfl
      · exact ⟨hx, by simp [h1]⟩
      · exact ⟨hy, by simp [h2]⟩)).length_le
  have h4 := List.length_eq_countP_add_countP P (l := L)
  rw [List.countP_eq_length_filter, List.countP_eq_length_filter] at h4
  have h5 : (L.filter fun z => decide ¬ P z = true) = L.filter fun z => !P z := by
    apply List.filter_congr
    intro z _
    cases P z <;> simp
  simp only [List.length_cons, List.length_nil] at h3
  rw [h5] at h4
  omega

theorem amScan_spec (s : S) (k : Am) (p : Nat) (hp : p ∈ k.w) (h2 : 2 ≤ k.w.length) (hpv : s.value p = some true) : ∀ (xs pre : List Nat) (nf nt : Nat), k.w = pre ++ xs →
    nf = (pre.filter fun x => s.value x == some false).length → nt = (pre.filter fun x => s.value x == some true).length → (p ∈ pre → ∀ y ∈ k.u, s.value y = some true) →
    match amScan s k p pre xs nf nt with
    | .keep => ∀ y ∈ k.w, y ≠ p → s.value y = some false
    | .units => (∀ y ∈ k.u, s.value y = some true) ∧ ∀ y ∈ k.w, y ≠ p → s.value y ≠ some true
    | .confl => k.card < (k.lits.filter fun q => s.value q == some true).length
    | .move k' q => ∃ pre xs r1 r2, k.w = pre ++ p :: xs ∧ k.u = r1 ++ q :: r2 ∧ k' = ⟨pre ++ q :: xs, r1 ++ p :: r2⟩ ∧ s.value q ≠ some true
  | [], pre, nf, nt, hw, hf, ht, hu => by
    rw [List.append_nil] at hw
    unfold amScan
    have hu := hu (hw ▸ hp)
    by_cases h : nt > 1
    · rw [if_pos h]
      dsimp only
      unfold Am.lits Am.card
      rw [List.filter_append, List.length_append, hw, ← ht, List.filter_eq_self.2 (fun y hy => by simp [hu y hy])]
      omega
    · rw [if_neg h]
      refine ⟨hu, fun y hy hne hv => ?_⟩
      have : ([p, y]).length ≤ (pre.filter fun x => s.value x == some true).length :=
        (List.subperm_of_subset (by simp [hne.symm]) (by
          intro z hz
          simp only [List.mem_cons, List.not_mem_nil, or_false] at hz
          rw [List.mem_filter]
          rcases hz with rfl | rfl
          · exact ⟨hw ▸ hp, by simp [hpv]⟩
          · exact ⟨hw ▸ hy, by simp [hv]⟩)).length_le
      simp only [List.length_cons, List.length_nil] at this
      omega
  | x :: xs, pre, nf, nt, hw, hf, ht, hu => by
    have hw' : k.w = (pre ++ [x]) ++ xs := by rw [hw]; simp
    unfold amScan
    cases hv : s.value x with
    | none =>
      dsimp only
      refine amScan_spec s k p hp h2 hpv xs (pre ++ [x]) nf nt hw' (by rw [List.filter_append, hf]; simp [hv]) (by rw [List.filter_append, ht]; simp [hv]) fun hm => hu ?_
      rcases List.mem_append.1 hm with hm | hm
      · exact hm
      · rw [List.mem_singleton] at hm; subst hm; rw [hpv] at hv; cases hv
    | some b =>
      cases b with
      | false =>
        dsimp only
        by_cases h : nf + 1 ≥ k.w.length - 1
        · rw [if_pos h]
          dsimp only
          intro y hy hne
          by_contra hyv
          have h1 := filter_two (P := fun z => s.value z == some false) hp hy hne (by simp [hpv]) (by simpa using hyv)
          have h3 : nf + 1 ≤ (k.w.filter fun z => s.value z == some false).length := by
            rw [hw', List.filter_append, List.filter_append, List.length_append, List.length_append, ← hf]
            simp [hv]
          omega
        · rw [if_neg h]
          refine amScan_spec s k p hp h2 hpv xs (pre ++ [x]) (nf + 1) nt hw' (by rw [List.filter_append, List.length_append, ← hf]; simp [hv]) (by rw [List.filter_append, ht]; simp [hv]) fun hm => hu ?_
          rcases List.mem_append.1 hm with hm | hm
          · exact hm
          · rw [List.mem_singleton] at hm; subst hm; rw [hpv] at hv; cases hv
      | true =>
        dsimp only
        by_cases h : nt + 1 > k.card
        · rw [if_pos h]
          dsimp only
          refine Nat.lt_of_lt_of_le h ?_
          unfold Am.lits
          rw [hw', List.filter_append, List.filter_append, List.filter_append, List.length_append, List.length_append, List.length_append, ← ht]
          simp only [List.filter_cons, hv, beq_self_eq_true, if_true, List.filter_nil, List.length_cons, List.length_nil]
          omega
        · rw [if_neg h]
          have ihf : nf = ((pre ++ [x]).filter fun x => s.value x == some false).length := by rw [List.filter_append, hf]; simp [hv]
          have iht : nt + 1 = ((pre ++ [x]).filter fun x => s.value x == some true).length := by rw [List.filter_append, List.length_append, ← ht]; simp [hv]
          by_cases e : x = p
          · rw [if_pos e]
            subst e
            have hfn := findNotTrue_spec s k.u []
            cases hfr : findNotTrue s [] k.u with
            | none =>
              rw [hfr] at hfn
              dsimp only at hfn ⊢
              exact amScan_spec s k x hp h2 hpv xs (pre ++ [x]) nf (nt + 1) hw' ihf iht fun _ => hfn
            | some r =>
              obtain ⟨r1, q, r2⟩ := r
              rw [hfr] at hfn
              dsimp only at hfn ⊢
              exact ⟨pre, xs, r1, r2, hw, by simpa using hfn.1, rfl, hfn.2⟩
          · rw [if_neg e]
            refine amScan_spec s k p hp h2 hpv xs (pre ++ [x]) nf (nt + 1) hw' ihf iht fun hm => hu ?_
            rcases List.mem_append.1 hm with hm | hm
            · exact hm
            · rw [List.mem_singleton] at hm; exact absurd hm.symm e

/-- an at-most clause has been dealt with -/
theorem PI.amDone {Φ : (Nat → Bool) → Prop} {J : Nat → Prop} {s : S} {p c bl : Nat} {k : Am} {todo : List (Nat × Nat)}
    (h : PI Φ J s (fun c' w => w = neg p ∧ c' ∈ ((c, bl) :: todo).map Prod.fst)) (hk : s.am c = some k) (hl : s.level (p / 2) = s.dl)
    (hy : ∀ y ∈ k.w, y ≠ p → neg y ∈ s.trail) : PI Φ J s (fun c' w => w = neg p ∧ c' ∈ todo.map Prod.fst) := by
  refine ⟨h.d, h.t, h.m, h.q, h.w.mono ?_, h.a.mono ?_⟩
  · intro c' hc w hw hpw he hne
    refine absurd ⟨he.1, ?_⟩ hne
    have := he.2
    simp only [List.map_cons, List.mem_cons] at this
    rcases this with e | e
    · rw [e] at hc; rw [h.a.att c hc] at hk; cases hk
    · exact e
  · intro c' hc' k' hk' x hx hpx he hne
    have hxp : x = p := neg_inj he.1
    have hcc : c' = c := by
      by_contra hcc
      refine hne ⟨he.1, ?_⟩
      have := he.2
      simpa [hcc] using this
    subst hcc hxp
    rw [hk] at hk'; cases hk'
    intro y hyk hne'
    have h1 := hy y hyk hne'
    refine ⟨h1, ?_⟩
    rw [hl]
    have := h.t.lev_le h1
    rwa [neg_var] at this

/-- too many true literals are excluded -/
theorem am_too_many {k : Am} {u : Nat → Bool} (hs : (k.lits.filter (lv u)).length ≤ k.card) {T : List Nat} (hn : T.Nodup) (ht : ∀ x ∈ T, x ∈ k.lits ∧ lv u x = true) : T.length ≤ k.card :=
  Nat.le_trans (List.subperm_of_subset hn fun x hx => List.mem_filter.2 (ht x hx)).length_le hs

theorem amUnits_loop {Φ : (Nat → Bool) → Prop} {J : Nat → Prop} {p c : Nat} {k : Am} {ex : Nat → Nat → Prop} : ∀ (xs : List Nat) (s : S), PI0 Φ J s ex (· = c) → c ∈ s.ams → s.am c = some k →
    p ∈ k.w → p ∈ s.trail → (∀ y ∈ k.u, y ∈ s.trail) → (∀ y ∈ k.w, y ≠ p → y ∉ s.trail) → (∀ x ∈ xs, x ∈ k.w) →
    Frame s (amUnits c p s xs) ∧ (amUnits c p s xs).am = s.am ∧ (amUnits c p s xs).watches = s.watches ∧ (amUnits c p s xs).proc = s.proc ∧
    PI0 Φ J (amUnits c p s xs) ex (· = c) ∧ (∀ x ∈ xs, x ≠ p → neg x ∈ (amUnits c p s xs).trail) ∧
    ∀ x ∈ (amUnits c p s xs).trail, x ∉ s.trail → (amUnits c p s xs).level (x / 2) = s.dl
  | [], s, h, _, _, _, _, _, _, _ => ⟨Frame.refl s, rfl, rfl, rfl, h, by simp, fun x hx hn => absurd hx hn⟩
  | x :: xs, s, h, hcm, hk, hpk, hpt, hu, hwn, hxs => by
    unfold amUnits
    have hxk := hxs x List.mem_cons_self
    have hxs' : ∀ y ∈ xs, y ∈ k.w := fun y hy => hxs y (List.mem_cons_of_mem _ hy)
    by_cases hc : x ≠ p ∧ s.value x ≠ some false
    · rw [if_pos hc]
      have hxt := hwn x hxk hc.1
      have hv : s.value x = none := by
        cases hx : s.value x with
        | none => rfl
        | some b =>
          cases b with
          | false => exact absurd hx hc.2
          | true => exact absurd ((h.t.tval x).1 hx) hxt
      have hv' : s.value (neg x) = none := by rw [value_neg, hv]; rfl
      have hxl : x ∈ k.lits := List.mem_append_left _ hxk
      have hcnt : k.card ≤ (k.lits.filter fun q => decide (q ∈ s.trail)).length := by
        have hnd := h.a.nodup c hcm k hk
        unfold Am.lits at hnd
        rw [List.nodup_append] at hnd
        have : (p :: k.u).length ≤ (k.lits.filter fun q => decide (q ∈ s.trail)).length :=
          (List.subperm_of_subset (List.nodup_cons.2 ⟨fun hm => hnd.2.2 p hpk p hm rfl, hnd.2.1⟩) (by
            intro z hz
            rw [List.mem_filter]
            rcases List.mem_cons.1 hz with rfl | hz
            · exact ⟨List.mem_append_left _ hpk, by simpa using hpt⟩
            · exact ⟨List.mem_append_right _ hz, by simpa using hu z hz⟩)).length_le
        unfold Am.card
        simpa using this
      have h1 := h.enqueue (l := neg x) (r := some c) (Or.inl hv') (by rw [neg_var]; exact h.a.range c hcm k hk x hxl)
        (fun _ => ⟨fun e => by rw [hk] at e; exact absurd e (by simp), fun k' hk' => by
          rw [hk] at hk'
          have e : k = k' := by simpa using hk'
          subst e
          exact ⟨hcm, by rw [neg_neg]; exact hxl, hcnt, fun _ _ h => h⟩⟩)
        (fun hd u hu' => by
          rw [lv_neg]
          cases hx : lv u x with
          | false => rfl
          | true =>
            exfalso
            have h2 : (x :: k.lits.filter fun q => decide (q ∈ s.trail)).length ≤ k.card := am_too_many (h.a.sem c hcm k hk u hu')
              (List.nodup_cons.2 ⟨fun hm => hxt (by simpa using (List.mem_filter.1 hm).2), (h.a.nodup c hcm k hk).filter _⟩) (by
                intro z hz
                rcases List.mem_cons.1 hz with rfl | hz
                · exact ⟨hxl, hx⟩
                · obtain ⟨z1, z2⟩ := List.mem_filter.1 hz
                  simp only [decide_eq_true_eq] at z2
                  exact ⟨z1, h.m.imp0 z z2 (by have := h.t.lev_le z2; omega) u hu'⟩)
            rw [List.length_cons] at h2
            omega)
        (h.a.jcl c hcm k hk _ ((h.a.nodup c hcm k hk).filter _) (fun y hy => by
          obtain ⟨z1, z2⟩ := List.mem_filter.1 hy
          simp only [decide_eq_true_eq] at z2
          exact ⟨z1, h.m.jtr y z2⟩) hcnt x hxl fun hm => hxt (by simpa using (List.mem_filter.1 hm).2))
        (fun c' k' e hk' => by subst e; rw [hk] at hk'; cases hk'; exact Am.pos_neg (h.a.pos c' hcm k hk) hxl) (fun c' _ e _ => by cases e; rfl)
      have hnx : ∀ y ∈ k.w, y ≠ p → y ∉ (enqueue s (neg x) (some c)).trail := by
        intro y hy hne hm
        rcases List.mem_cons.1 hm with e | hm
        · exact Am.pos_neg (h.a.pos c hcm k hk) hxl (e ▸ List.mem_append_left _ hy)
        · exact hwn y hy hne hm
      obtain ⟨g1, g2, g3, g4, g5, g6, g7⟩ := amUnits_loop (ex := ex) xs (enqueue s (neg x) (some c)) h1 hcm hk hpk (List.mem_cons_of_mem _ hpt) (fun y hy => List.mem_cons_of_mem _ (hu y hy)) hnx hxs'
      refine ⟨(enqueue_frame h.t hv' _).trans g1, g2, g3, g4.trans (enqueue_proc _ _ _ h.t.qle), g5, fun y hy hne => ?_, fun y hy hn => ?_⟩
      · rcases List.mem_cons.1 hy with rfl | hy
        · exact g1.trail.subset List.mem_cons_self
        · exact g6 y hy hne
      · by_cases e : y = neg x
        · rw [e, g1.level (neg x) List.mem_cons_self]
          exact upd_same _ _ _
        · exact g7 y hy fun hm => by
            rcases List.mem_cons.1 hm with e' | hm
            · exact e e'
            · exact hn hm
    · rw [if_neg hc]
      obtain ⟨g1, g2, g3, g4, g5, g6, g7⟩ := amUnits_loop (ex := ex) xs s h hcm hk hpk hpt hu hwn hxs'
      refine ⟨g1, g2, g3, g4, g5, fun y hy hne => ?_, g7⟩
      rcases List.mem_cons.1 hy with rfl | hy
      · have : s.value y = some false := by
          by_contra e; exact hc ⟨hne, e⟩
        exact g1.trail.subset ((h.t.false_iff y).1 this)
      · exact g6 y hy hne

/-- the other watched literals become false -/
theorem PI.amUnits {Φ : (Nat → Bool) → Prop} {J : Nat → Prop} {s : S} {p c : Nat} {k : Am} {ex : Nat → Nat → Prop} (h : PI Φ J s ex) (hcm : c ∈ s.ams) (hk : s.am c = some k)
    (hpk : p ∈ k.w) (hpt : p ∈ s.trail) (hu : ∀ y ∈ k.u, y ∈ s.trail) (hwn : ∀ y ∈ k.w, y ≠ p → y ∉ s.trail) :
    Frame s (amUnits c p s k.w) ∧ (amUnits c p s k.w).am = s.am ∧ (amUnits c p s k.w).watches = s.watches ∧ (amUnits c p s k.w).proc = s.proc ∧
    PI Φ J (amUnits c p s k.w) ex ∧ ∀ x ∈ k.w, x ≠ p → neg x ∈ (amUnits c p s k.w).trail := by
  have h0 : PI0 Φ J s ex (· = c) := by
    obtain ⟨h1, h2, h3, h4, h5, h6, h7, h8, h9, h10, h11, h12, h13, h14, h15, h16⟩ := h.a
    exact ⟨h.d, h.t, h.m, h.q, h.w, h1, h2, h3, h4, h5, h6, h7, h8, h9, h10, h11, h12, h13, h14, h15, fun x hx hl c' hr k' hk' _ => h16 x hx hl c' hr k' hk' not_false⟩
  obtain ⟨g1, g2, g3, g4, g5, g6, g7⟩ := amUnits_loop k.w s h0 hcm hk hpk hpt hu hwn fun _ h => h
  refine ⟨g1, g2, g3, g4, ⟨g5.d, g5.t, g5.m, g5.q, g5.w, ?_⟩, g6⟩
  obtain ⟨h1, h2, h3, h4, h5, h6, h7, h8, h9, h10, h11, h12, h13, h14, h15, h16⟩ := g5.a
  refine ⟨h1, h2, h3, h4, h5, h6, h7, h8, h9, h10, h11, h12, h13, h14, h15, ?_⟩
  intro x hx hl c' hr k' hk' _ q hq
  by_cases e : c' = c
  · subst e
    rw [g2, hk] at hk'; cases hk'
    by_cases hxs : x ∈ s.trail
    · rw [g1.level x hxs] at hl ⊢
      rw [g1.reason x hxs] at hr
      obtain ⟨b1, b2⟩ := h.a.full x hxs hl c' hr k hk not_false q hq
      refine ⟨b1.imp (g1.trail.subset ·) (g1.trail.subset ·), ?_⟩
      rcases b1 with b1 | b1
      · rw [g1.level q b1]; exact b2
      · have := g1.level _ b1
        rw [neg_var] at this
        rw [this]; exact b2
    · have hass : q ∈ (Sat.amUnits c' p s k.w).trail ∨ neg q ∈ (Sat.amUnits c' p s k.w).trail := by
        rcases List.mem_append.1 hq with hq | hq
        · by_cases e : q = p
          · rw [e]; exact Or.inl (g1.trail.subset hpt)
          · exact Or.inr (g6 q hq e)
        · exact Or.inl (g1.trail.subset (hu q hq))
      refine ⟨hass, ?_⟩
      rw [g7 x hx hxs]
      have hdl : (Sat.amUnits c' p s k.w).dl = s.dl := by rw [S.dl, S.dl, g1.trailLim]
      rw [← hdl]
      rcases hass with h | h
      · exact g5.t.lev_le h
      · have := g5.t.lev_le h
        rwa [neg_var] at this
  · exact h16 x hx hl c' hr k' hk' e q hq

/-- another literal of an at-most clause is watched -/
theorem PI.amMove {Φ : (Nat → Bool) → Prop} {J : Nat → Prop} {s : S} {p c bl q : Nat} {k : Am} {pre xs r1 r2 : List Nat} {kept todo : List (Nat × Nat)}
    (h : PI Φ J s (fun c' w => w = neg p ∧ c' ∈ ((c, bl) :: todo).map Prod.fst))
    (hw : s.watches p = kept ++ (c, bl) :: todo) (hcm : c ∈ s.ams) (hk : s.am c = some k) (e1 : k.w = pre ++ p :: xs) (e2 : k.u = r1 ++ q :: r2) (hpt : p ∈ s.trail) (hq : s.value q ≠ some true) :
    PI Φ J { s with
            am := upd s.am c (some ⟨pre ++ q :: xs, r1 ++ p :: r2⟩)
            watches := upd (upd s.watches p (kept ++ todo)) q (upd s.watches p (kept ++ todo) q ++ [(c, 0)]) }
      (fun c' w => w = neg p ∧ c' ∈ todo.map Prod.fst) ∧
    Frame s { s with
            am := upd s.am c (some ⟨pre ++ q :: xs, r1 ++ p :: r2⟩)
            watches := upd (upd s.watches p (kept ++ todo)) q (upd s.watches p (kept ++ todo) q ++ [(c, 0)]) } := by
  have hnd := h.a.nodup c hcm k hk
  have hperm : (Am.lits ⟨pre ++ q :: xs, r1 ++ p :: r2⟩).Perm k.lits := by
    unfold Am.lits
    dsimp only
    rw [e1, e2]
    have a1 : ((pre ++ q :: xs) ++ (r1 ++ p :: r2)).Perm (q :: p :: ((pre ++ xs) ++ (r1 ++ r2))) :=
      (List.perm_middle.append List.perm_middle).trans (List.Perm.cons _ List.perm_middle)
    have a2 : ((pre ++ p :: xs) ++ (r1 ++ q :: r2)).Perm (p :: q :: ((pre ++ xs) ++ (r1 ++ r2))) :=
      (List.perm_middle.append List.perm_middle).trans (List.Perm.cons _ List.perm_middle)
    exact a1.trans ((List.Perm.swap _ _ _).trans a2.symm)
  have hcard : (Am.card ⟨pre ++ q :: xs, r1 ++ p :: r2⟩) = k.card := by unfold Am.card; rw [e2]; simp
  have hqu : q ∈ k.u := by rw [e2]; simp
  have hpw : p ∈ k.w := by rw [e1]; simp
  have hdis : ∀ x, x ∈ k.w → x ∈ k.u → False := by
    intro x h1 h2
    unfold Am.lits at hnd
    rw [List.nodup_append] at hnd
    exact hnd.2.2 x h1 x h2 rfl
  have hqp : q ≠ p := fun e => hdis p hpw (e ▸ hqu)
  have hpx : p ∉ pre ∧ p ∉ xs := by
    unfold Am.lits at hnd
    rw [List.nodup_append, e1] at hnd
    have := List.perm_middle.nodup_iff.1 hnd.1
    rw [List.nodup_cons, List.mem_append, not_or] at this
    exact this.1
  have hsome : ∀ x k', upd s.am c (some ⟨pre ++ q :: xs, r1 ++ p :: r2⟩) x = some k' → ∃ k0, s.am x = some k0 ∧ k'.lits.Perm k0.lits ∧ k'.card = k0.card ∧
      (x = c → k0 = k ∧ k' = ⟨pre ++ q :: xs, r1 ++ p :: r2⟩) ∧ (x ≠ c → k0 = k') := by
    intro x k' hx
    by_cases e : x = c
    · subst e
      rw [upd_same] at hx
      cases hx
      exact ⟨k, hk, hperm, hcard, fun _ => ⟨rfl, rfl⟩, fun e => absurd rfl e⟩
    · rw [upd_ne _ _ e] at hx
      exact ⟨k', hx, .refl _, rfl, fun e' => absurd e' e, fun _ => rfl⟩
  have hnone : ∀ x, upd s.am c (some ⟨pre ++ q :: xs, r1 ++ p :: r2⟩) x = none → x ≠ c ∧ s.am x = none := by
    intro x hx
    by_cases e : x = c
    · subst e; rw [upd_same] at hx; cases hx
    · rw [upd_ne _ _ e] at hx; exact ⟨e, hx⟩
  have hnone' : ∀ x, s.am x = none → upd s.am c (some ⟨pre ++ q :: xs, r1 ++ p :: r2⟩) x = none := by
    intro x hx
    rw [upd_ne]
    · exact hx
    · rintro rfl; rw [hk] at hx; cases hx
  -- the watcher lists
  have hwp := h.d.wNodup p
  rw [hw] at hwp
  simp only [List.map_append, List.map_cons] at hwp
  have hwp2 := (List.perm_middle (l₁ := kept.map Prod.fst) (a := c) (l₂ := todo.map Prod.fst)).nodup_iff.1 hwp
  rw [List.nodup_cons, ← List.map_append] at hwp2
  obtain ⟨hcn, hsub⟩ := hwp2
  have hwmem : ∀ l e, e ∈ upd (upd s.watches p (kept ++ todo)) q (upd s.watches p (kept ++ todo) q ++ [(c, 0)]) l →
      (l = q ∧ e = (c, 0)) ∨ (e ∈ s.watches l ∧ (l = p → e ∈ kept ++ todo)) := by
    intro l e he
    by_cases e1 : l = q
    · subst e1
      rw [upd_same, upd_ne _ _ hqp] at he
      rcases List.mem_append.1 he with he | he
      · exact Or.inr ⟨he, fun e => absurd e hqp⟩
      · exact Or.inl ⟨rfl, by simpa using he⟩
    · rw [upd_ne _ _ e1] at he
      by_cases e2 : l = p
      · subst e2
        rw [upd_same] at he
        refine Or.inr ⟨?_, fun _ => he⟩
        rw [hw]
        rcases List.mem_append.1 he with he | he <;> simp [he]
      · rw [upd_ne _ _ e2] at he
        exact Or.inr ⟨he, fun e => absurd e e2⟩
  have hold : ∀ l y b, (y, b) ∈ s.watches l → y ≠ c ∨ l ≠ p →
      (y, b) ∈ upd (upd s.watches p (kept ++ todo)) q (upd s.watches p (kept ++ todo) q ++ [(c, 0)]) l := by
    intro l y b hm hne
    have h1 : (y, b) ∈ upd s.watches p (kept ++ todo) l := by
      by_cases e : l = p
      · subst e
        have : y ≠ c := by rcases hne with h | h; exact h; exact absurd rfl h
        rw [hw] at hm
        rw [upd_same]
        simpa [this] using hm
      · rw [upd_ne _ _ e]; exact hm
    by_cases e : l = q
    · subst e; rw [upd_same]; exact List.mem_append_left _ h1
    · rw [upd_ne _ _ e]; exact h1
  have hcatt : c ∉ s.att := fun hm => by rw [h.a.att c hm] at hk; cases hk
  refine ⟨⟨⟨h.d.idlt, h.d.nodupAtt, h.d.clNodup, h.d.range, ?_, ?_, ?_, h.d.bMem, h.d.bAll, h.d.seen0, ?_⟩, ?_, ⟨h.m.db, h.m.imp0, h.m.jcl, h.m.jtr⟩, h.q, ?_, ?_⟩, ?_⟩
  · intro l
    show ((upd (upd s.watches p (kept ++ todo)) q (upd s.watches p (kept ++ todo) q ++ [(c, 0)]) l).map Prod.fst).Nodup
    by_cases e1 : l = q
    · subst e1
      rw [upd_same, upd_ne _ _ hqp, List.map_append, List.nodup_append]
      refine ⟨h.d.wNodup _, by simp, ?_⟩
      intro x hx y hy
      simp only [List.map_cons, List.map_nil, List.mem_singleton] at hy
      subst hy
      rintro rfl
      obtain ⟨⟨x, b⟩, hm, rfl⟩ := List.mem_map.1 hx
      exact hdis _ (h.a.wm _ x b k hm hk).2 hqu
    · rw [upd_ne _ _ e1]
      by_cases e2 : l = p
      · subst e2; rw [upd_same]; exact hsub
      · rw [upd_ne _ _ e2]; exact h.d.wNodup l
  · intro l x b hxb hxm
    obtain ⟨n1, n2⟩ := hnone x hxm
    rcases hwmem l (x, b) hxb with ⟨_, e⟩ | ⟨he, _⟩
    · cases e; exact absurd rfl n1
    · exact h.d.wMem l x b he n2
  · intro x hx hrx w hwx
    obtain ⟨⟨x', b⟩, hm, e⟩ := List.mem_map.1 (h.d.wAll x hx hrx w hwx)
    cases e
    exact List.mem_map.2 ⟨_, hold _ x' b hm (Or.inl fun e => hcatt (e ▸ hx)), rfl⟩
  · intro x hx hrx
    have hne : x ≠ c := fun e => hcatt (e ▸ hx)
    exact (h.d.wOne x hx hrx).imp (hold _ _ _ · (Or.inl hne)) (hold _ _ _ · (Or.inl hne))
  · refine ⟨h.t.tval, h.t.trange, h.t.tlev, h.t.tdup, ?_, h.t.tlimS, h.t.tlimLe, h.t.heapAll, h.t.qle⟩
    intro l rest hl hlev
    have h1 := h.t.treason l rest hl hlev
    show ReasonOk _ (s.reason (l / 2)) l rest
    cases hrs : s.reason (l / 2) with
    | none => rw [hrs] at h1; exact h1
    | some x =>
      rw [hrs] at h1
      refine ⟨fun hxm => h1.1 (hnone x hxm).2, fun k' hk' => ?_⟩
      obtain ⟨k0, b1, b2, b3, _⟩ := hsome x k' hk'
      obtain ⟨c1, c2, c3, c4⟩ := h1.2 k0 b1
      refine ⟨c1, b2.mem_iff.2 c2, ?_, fun q hq => c4 q (b2.mem_iff.1 hq)⟩
      rw [b3, (b2.filter _).length_eq]
      exact c3
  · intro x hx w hwx hpw' hex
    have hne : x ≠ c := fun e => hcatt (e ▸ hx)
    obtain ⟨y, g1, g2, g3, g4⟩ := h.w x hx w hwx hpw' fun he => hex ⟨he.1, by
      have := he.2
      simpa [hne] using this⟩
    exact ⟨y, g1, g2, g3, fun hr => hold _ _ _ (g4 hr) (Or.inl hne)⟩
  · refine ⟨h.a.idlt, fun x hx => hnone' x (h.a.new x hx), h.a.nd, ?_, fun x hx => hnone' x (h.a.att x hx), fun l x b hm => hnone' x (h.a.bin l x b hm), ?_, ?_, ?_, ?_, ?_, ?_, ?_, ?_, ?_, ?_⟩
    · intro x hx hn
      exact h.a.isam x hx (hnone x hn).2
    · intro x hx k' hk'
      obtain ⟨k0, b1, b2, _⟩ := hsome x k' hk'
      exact b2.nodup_iff.2 (h.a.nodup x hx k0 b1)
    · intro x hx k' hk' y hy
      obtain ⟨k0, b1, b2, _⟩ := hsome x k' hk'
      exact h.a.pos x hx k0 b1 y (b2.mem_iff.1 hy)
    · intro x hx k' hk' y hy
      obtain ⟨k0, b1, b2, _⟩ := hsome x k' hk'
      exact h.a.range x hx k0 b1 y (b2.mem_iff.1 hy)
    · intro x hx k' hk'
      obtain ⟨k0, b1, _, _, b4, b5⟩ := hsome x k' hk'
      have := h.a.two x hx k0 b1
      by_cases e : x = c
      · obtain ⟨rfl, rfl⟩ := b4 e
        rw [e1] at this
        simpa using this
      · rw [b5 e] at this; exact this
    · intro l x b k' hm hk'
      obtain ⟨k0, b1, _, _, b4, b5⟩ := hsome x k' hk'
      rcases hwmem l (x, b) hm with ⟨e, e'⟩ | ⟨he, hlp⟩
      · cases e'
        obtain ⟨_, rfl⟩ := b4 rfl
        refine ⟨hcm, ?_⟩
        rw [e]; simp
      · obtain ⟨c1, c2⟩ := h.a.wm l x b k0 he b1
        refine ⟨c1, ?_⟩
        by_cases e : x = c
        · obtain ⟨rfl, rfl⟩ := b4 e
          have hlp' : l ≠ p := by
            intro e'
            exact hcn (List.mem_map.2 ⟨_, hlp e', e⟩)
          rw [e1] at c2
          simp only [List.mem_append, List.mem_cons] at c2 ⊢
          rcases c2 with c2 | c2 | c2
          · exact Or.inl c2
          · exact absurd c2 hlp'
          · exact Or.inr (Or.inr c2)
        · rw [b5 e] at c2; exact c2
    · intro x hx k' hk' y hy
      obtain ⟨k0, b1, _, _, b4, b5⟩ := hsome x k' hk'
      show x ∈ (upd (upd s.watches p (kept ++ todo)) q (upd s.watches p (kept ++ todo) q ++ [(c, 0)]) y).map Prod.fst
      have hkeep : y ∈ k0.w → x ≠ c ∨ y ≠ p → x ∈ (upd (upd s.watches p (kept ++ todo)) q (upd s.watches p (kept ++ todo) q ++ [(c, 0)]) y).map Prod.fst := by
        intro hyk hne
        obtain ⟨⟨x', b⟩, hm, e⟩ := List.mem_map.1 (h.a.wa x hx k0 b1 y hyk)
        cases e
        exact List.mem_map.2 ⟨_, hold _ x' b hm hne, rfl⟩
      by_cases e : x = c
      · obtain ⟨rfl, rfl⟩ := b4 e
        simp only [List.mem_append, List.mem_cons] at hy
        rcases hy with hy | rfl | hy
        · exact hkeep (by rw [e1]; simp [hy]) (Or.inr fun e' => hpx.1 (e' ▸ hy))
        · rw [upd_same, e]; simp
        · exact hkeep (by rw [e1]; simp [hy]) (Or.inr fun e' => hpx.2 (e' ▸ hy))
      · exact hkeep (by rw [b5 e]; exact hy) (Or.inl e)
    · intro x hx k' hk' u hu
      obtain ⟨k0, b1, b2, b3, _⟩ := hsome x k' hk'
      rw [(b2.filter _).length_eq, b3]
      exact h.a.sem x hx k0 b1 u hu
    · intro x hx k' hk' T hT hT2 hT3 y hy hyT
      obtain ⟨k0, b1, b2, b3, _⟩ := hsome x k' hk'
      exact h.a.jcl x hx k0 b1 T hT (fun z hz => ⟨b2.mem_iff.1 (hT2 z hz).1, (hT2 z hz).2⟩) (by rw [← b3]; exact hT3) y (b2.mem_iff.1 hy) hyT
    · intro x hx k' hk' y hy hyp hex z hz hne
      obtain ⟨k0, b1, _, _, b4, b5⟩ := hsome x k' hk'
      by_cases e : x = c
      · obtain ⟨rfl, rfl⟩ := b4 e
        exfalso
        simp only [List.mem_append, List.mem_cons] at hy
        have hyk : y = q ∨ (y ∈ k0.w ∧ y ≠ p) := by
          rw [e1]
          rcases hy with hy | hy | hy
          · exact Or.inr ⟨by simp [hy], fun e' => hpx.1 (e' ▸ hy)⟩
          · exact Or.inl hy
          · exact Or.inr ⟨by simp [hy], fun e' => hpx.2 (e' ▸ hy)⟩
        rcases hyk with rfl | ⟨hyk, hyne⟩
        · exact hq ((h.t.tval y).2 (proc_subset s hyp))
        · have := h.a.w x hx k0 b1 y hyk hyp (fun he => hyne (neg_inj he.1)) p hpw (Ne.symm hyne)
          exact h.t.not_both hpt this.1
      · have := b5 e
        subst this
        refine h.a.w x hx k0 b1 y hy hyp (fun he => hex ⟨he.1, ?_⟩) z hz hne
        have := he.2
        simpa [e] using this
    · intro x hx hl c' hr k' hk' _ y hy
      obtain ⟨k0, b1, b2, _⟩ := hsome c' k' hk'
      exact h.a.full x hx hl c' hr k0 b1 not_false y (b2.mem_iff.1 hy)
  · refine ⟨rfl, rfl, rfl, rfl, rfl, rfl, rfl, rfl, rfl, rfl, fun _ => .refl _, fun _ => rfl, List.suffix_refl _, fun _ _ => rfl, rfl, rfl, fun _ _ => rfl, fun _ h hn => absurd h hn, rfl, fun x => ?_⟩
    show AmSim (s.am x) (upd s.am c (some ⟨pre ++ q :: xs, r1 ++ p :: r2⟩) x)
    by_cases e : x = c
    · subst e
      rw [upd_same, hk]
      exact ⟨hperm, by dsimp only; rw [e2]; simp⟩
    · rw [upd_ne _ _ e]; exact .refl _

/-- the rest of the queue is given up -/
theorem PI.confl {Φ : (Nat → Bool) → Prop} {J : Nat → Prop} {s : S} {ex : Nat → Nat → Prop} (h : PI Φ J s ex) (hex : ∀ c w, ex c w → s.level (w / 2) = s.dl) :
    PI Φ J { s with qhead := s.trail.length } (fun _ w => s.level (w / 2) = s.dl) := by
  have hpr : ({ s with qhead := s.trail.length } : S).proc = s.trail := by simp [S.proc]
  have hun : ∀ x ∈ s.trail, x ∉ s.proc → s.level (x / 2) = s.dl := by
    intro x hx hxp
    obtain ⟨rest, hr⟩ := mem_suffix hx
    refine h.q x rest hr ?_
    by_contra hlt
    apply hxp
    obtain ⟨pre, hpre⟩ := hr
    unfold S.proc
    rw [← hpre]
    have : (pre ++ x :: rest).length - s.qhead ≤ pre.length := by
      simp only [List.length_append, List.length_cons]; omega
    rw [List.drop_append_of_le_length this]
    simp
  refine ⟨⟨h.d.idlt, h.d.nodupAtt, h.d.clNodup, h.d.range, h.d.wNodup, h.d.wMem, h.d.wAll, h.d.bMem, h.d.bAll, h.d.seen0, h.d.wOne⟩, ⟨h.t.tval, h.t.trange, h.t.tlev, h.t.tdup, h.t.treason, h.t.tlimS, h.t.tlimLe,
    h.t.heapAll, Nat.le_refl _⟩, ⟨h.m.db, h.m.imp0, h.m.jcl, h.m.jtr⟩, ?_, ?_, ?_⟩
  · intro l rest hx hq
    have := hx.length_le
    simp only [List.length_cons] at this hq
    omega
  · intro c' hc' w hw' hpw hex'
    rw [hpr] at hpw
    by_cases hpw' : neg w ∈ s.proc
    · exact h.w c' hc' w hw' hpw' fun he => hex' (hex c' w he)
    · refine absurd ?_ hex'
      have := hun _ hpw hpw'
      rwa [neg_var] at this
  · obtain ⟨h1, h2, h3, h4, h5, h6, h7, h8, h9, h10, h11, h12, h13, h14, h15, h16⟩ := h.a
    refine ⟨h1, h2, h3, h4, h5, h6, h7, h8, h9, h10, h11, h12, h13, h14, ?_, h16⟩
    intro c hc k hk x hx hpx hex'
    rw [hpr] at hpx
    by_cases hpx' : x ∈ s.proc
    · exact h15 c hc k hk x hx hpx' fun he => hex' (hex c _ he)
    · refine absurd ?_ hex'
      rw [neg_var]
      exact hun _ hpx hpx'

/-- `visit` from the point where the watched literals have been exchanged -/
def visitTail (p c bl : Nat) (kept todo : List (Nat × Nat)) (s : S) : S × Option Nat :=
  if (s.cls c).a ≠ bl ∧ s.value (s.cls c).a = some true then
    visit p { s with watches := upd s.watches p (kept ++ [(c, (s.cls c).a)] ++ todo) } (kept ++ [(c, (s.cls c).a)]) todo
  else
    match findWatch s [] (s.cls c).rest with
    | some (r1, q, r2) =>
      visit p { s with
        cls := upd s.cls c { s.cls c with b := q, rest := r1 ++ neg p :: r2 }
        watches := upd (upd s.watches p (kept ++ todo)) (neg q) (upd s.watches p (kept ++ todo) (neg q) ++ [(c, (s.cls c).a)]) } kept todo
    | none =>
      if s.value (s.cls c).a = some false then
        ({ s with watches := upd s.watches p (kept ++ [(c, (s.cls c).a)] ++ todo), qhead := s.trail.length }, some c)
      else visit p (enqueue { s with watches := upd s.watches p (kept ++ [(c, (s.cls c).a)] ++ todo) } (s.cls c).a (some c)) (kept ++ [(c, (s.cls c).a)]) todo

theorem visit_cons {s : S} {bl : Nat} (p c : Nat) (kept todo : List (Nat × Nat)) (ham : s.am c = none) (h : ¬ s.value bl = some true) :
    visit p s kept ((c, bl) :: todo) = visitTail p c bl kept todo { s with cls := upd s.cls c (swapFalse (s.cls c) (neg p)) } := by
  conv_lhs => unfold visit
  rw [ham]
  dsimp only
  rw [if_neg h]
  unfold visitTail
  simp only [upd_same]
  rfl

theorem visit_spec {Φ : (Nat → Bool) → Prop} {J : Nat → Prop} {p : Nat} : ∀ (todo kept : List (Nat × Nat)) (s : S),
    PI Φ J s (fun c w => w = neg p ∧ c ∈ todo.map Prod.fst) → s.watches p = kept ++ todo → p ∈ s.proc → s.level (p / 2) = s.dl →
    Frame s (visit p s kept todo).1 ∧
    match (visit p s kept todo).2 with
    | none => PI Φ J (visit p s kept todo).1 (fun _ _ => False)
    | some c => Confl Φ J (visit p s kept todo).1 c
  | [], kept, s, h, hw, hp, hl => by
    unfold visit
    dsimp only
    rw [upd_self _ (by simpa using hw)]
    exact ⟨Frame.refl s, h.d, h.t, h.m, h.q, h.w.mono fun _ _ _ _ _ he _ => by simp at he, h.a.mono fun _ _ _ _ _ _ _ he _ => by simp at he⟩
  | (c, bl) :: todo, kept, s, h, hw, hp, hl => by
    have hpt := proc_subset s hp
    have hmem : (c, bl) ∈ s.watches p := by rw [hw]; simp
    cases ham : s.am c with
    | some k =>
      obtain ⟨hcm, hpk⟩ := h.a.wm p c bl k hmem ham
      have hsc := amScan_spec s k p hpk (h.a.two c hcm k ham) ((h.t.tval p).2 hpt) k.w [] 0 0 rfl rfl rfl (by simp)
      unfold visit
      rw [ham]
      dsimp only
      cases hres : amScan s k p [] k.w 0 0 with
      | keep =>
        rw [hres] at hsc
        dsimp only at hsc ⊢
        exact visit_spec todo _ s (h.amDone ham hl fun y hy hne => (h.t.false_iff y).1 (hsc y hy hne)) (by rw [hw]; simp) hp hl
      | units =>
        rw [hres] at hsc
        dsimp only at hsc ⊢
        obtain ⟨g1, g2, g3, g4, g5, g6⟩ := h.amUnits hcm ham hpk hpt (fun y hy => (h.t.tval y).1 (hsc.1 y hy)) (fun y hy hne hyt => hsc.2 y hy hne ((h.t.tval y).2 hyt))
        have hl' : (amUnits c p s k.w).level (p / 2) = (amUnits c p s k.w).dl := by rw [g1.level p hpt, hl, S.dl, S.dl, g1.trailLim]
        obtain ⟨f2, r⟩ := visit_spec (Φ := Φ) (J := J) (p := p) todo (kept ++ [(c, bl)]) _ (g5.amDone (by rw [g2]; exact ham) hl' g6) (by rw [g3, hw]; simp)
          (by rw [g4]; exact hp) hl'
        exact ⟨g1.trans f2, r⟩
      | confl =>
        rw [hres] at hsc
        dsimp only at hsc ⊢
        rw [upd_self _ hw]
        have h2 := h.confl fun c' w he => by rw [he.1, neg_var]; exact hl
        have ham2 : ({ s with qhead := s.trail.length } : S).am c = some k := ham
        refine ⟨frame_qhead _ _, h2, Or.inr ⟨hcm, k, ham, ?_⟩, ?_, ?_⟩
        · rw [List.filter_congr (q := fun q => s.value q == some true)]
          · exact hsc
          · intro q _
            rw [Bool.eq_iff_iff]
            simp [h.t.tval q]
        · rw [conflLits_some ham2]
          intro q hq
          obtain ⟨x, hx, rfl⟩ := List.mem_map.1 hq
          rw [neg_neg]
          have := (List.mem_filter.1 hx).2
          exact (h.t.tval x).1 (eq_of_beq this)
        · rw [conflLits_some ham2]
          refine ⟨neg p, List.mem_map.2 ⟨p, List.mem_filter.2 ⟨List.mem_append_left _ hpk, ?_⟩, rfl⟩, by rw [neg_var]; exact hl⟩
          exact beq_iff_eq.2 ((h.t.tval p).2 hpt)
      | move k' q =>
        rw [hres] at hsc
        dsimp only at hsc ⊢
        obtain ⟨pre, xs, r1, r2, e1, e2, e3, e4⟩ := hsc
        have hqp : p ≠ q := by
          rintro rfl
          exact e4 ((h.t.tval p).2 hpt)
        obtain ⟨h2, f2⟩ := h.amMove hw hcm ham e1 e2 hpt e4
        subst e3
        obtain ⟨f3, r⟩ := visit_spec (Φ := Φ) (J := J) (p := p) todo kept _ h2 (by dsimp only; rw [upd_ne _ _ hqp, upd_same]) hp hl
        exact ⟨f2.trans f3, r⟩
    | none =>
    obtain ⟨hc, hrne, hab, hbl⟩ := h.d.wMem p c bl hmem ham
    by_cases hv : s.value bl = some true
    · unfold visit
      rw [ham]
      dsimp only
      rw [if_pos hv]
      exact visit_spec todo _ s (h.done ham hl hbl ((h.t.tval bl).1 hv) hmem) (by rw [hw]; simp) hp hl
    rw [visit_cons p c kept todo ham hv]
    obtain ⟨k1, k2, k3, k4, k5, k6⟩ := swapFalse_spec (h.d.clNodup c hc) hab
    obtain ⟨h1, f1⟩ := h.swap hmem ham hpt
    generalize hs1 : ({ s with cls := upd s.cls c (swapFalse (s.cls c) (neg p)) } : S) = s1 at h1 f1 ⊢
    have hcls : s1.cls c = swapFalse (s.cls c) (neg p) := by rw [← hs1]; exact upd_same _ _ _
    rw [← hcls] at k1 k2 k3 k4 k5 k6
    unfold visitTail
    have hw1 : s1.watches p = kept ++ (c, bl) :: todo := by rw [← hs1]; exact hw
    have hp1 : p ∈ s1.proc := by rw [← hs1]; exact hp
    have hl1 : s1.level (p / 2) = s1.dl := by rw [← hs1]; exact hl
    have hpt1 := proc_subset s1 hp1
    have hc1 : c ∈ s1.att := by rw [← hs1]; exact hc
    have ham1 : s1.am c = none := by rw [← hs1]; exact ham
    have ha1 : (s1.cls c).a ∈ (s1.cls c).lits := by simp [Cls.lits]
    have hq1 : s1.qhead = s.qhead := by rw [← hs1]
    have hr1 : (s1.cls c).rest ≠ [] := by rw [k3]; exact hrne
    by_cases hf : (s1.cls c).a ≠ bl ∧ s1.value (s1.cls c).a = some true
    · rw [if_pos hf]
      have h2 := (h1.blocker hw1 ham1 ha1 k1 rfl ⟨rfl, List.mem_cons_self⟩).done ham1 hl1 ha1 ((h1.t.tval _).1 hf.2) (by
        show _ ∈ upd s1.watches p (kept ++ [(c, (s1.cls c).a)] ++ todo) p
        rw [upd_same]; simp)
      obtain ⟨f2, r⟩ := visit_spec (Φ := Φ) (J := J) (p := p) todo (kept ++ [(c, (s1.cls c).a)]) _ h2 (upd_same _ _ _) hp1 hl1
      exact ⟨(f1.trans (frame_watches _ _)).trans f2, r⟩
    rw [if_neg hf]
    have hft : s1.value (s1.cls c).a ≠ some true := by
      intro e
      by_cases e2 : (s1.cls c).a = bl
      · rw [e2] at e
        apply hv
        rw [← hs1] at e
        exact e
      · exact hf ⟨e2, e⟩
    have hfw := findWatch_spec s1 (s1.cls c).rest []
    cases hfd : findWatch s1 [] (s1.cls c).rest with
    | some e =>
      obtain ⟨r1, q, r2⟩ := e
      rw [hfd] at hfw
      dsimp only at hfw ⊢
      obtain ⟨h2, f2⟩ := h1.move hw1 ham1 k1 (by simpa using hfw.1) hfw.2 hft
      have hqn : neg q ≠ p := by
        intro e
        apply hfw.2
        rw [h1.t.false_iff, e]; exact hpt1
      have hw2 : (upd (upd s1.watches p (kept ++ todo)) (neg q) (upd s1.watches p (kept ++ todo) (neg q) ++ [(c, (s1.cls c).a)])) p = kept ++ todo := by
        rw [upd_ne _ _ hqn.symm, upd_same]
      obtain ⟨f3, r⟩ := visit_spec (Φ := Φ) (J := J) (p := p) todo kept _ h2 hw2 hp1 hl1
      exact ⟨(f1.trans f2).trans f3, r⟩
    | none =>
      rw [hfd] at hfw
      dsimp only at hfw ⊢
      have hothers : ∀ q ∈ (s1.cls c).lits, q ≠ (s1.cls c).a → neg q ∈ s1.trail := by
        intro q hq hne
        simp only [Cls.lits, List.mem_cons] at hq
        rcases hq with rfl | rfl | hq
        · exact absurd rfl hne
        · rw [k1, neg_neg]; exact hpt1
        · exact (h1.t.false_iff q).1 (hfw q hq)
      have h2 := h1.blocker hw1 ham1 ha1 k1 rfl ⟨rfl, List.mem_cons_self⟩
      obtain ⟨s2, hs2⟩ : ∃ s2 : S, { s1 with watches := upd s1.watches p (kept ++ [(c, (s1.cls c).a)] ++ todo) } = s2 := ⟨_, rfl⟩
      rw [hs2] at h2 ⊢
      have f2 : Frame s1 s2 := by rw [← hs2]; exact frame_watches _ _
      have e1 : s2.cls = s1.cls := by rw [← hs2]
      have e2 : s2.trail = s1.trail := by rw [← hs2]
      have e3 : s2.att = s1.att := by rw [← hs2]; rfl
      have e4 : s2.proc = s1.proc := by rw [← hs2]; rfl
      have e5 : s2.level = s1.level := by rw [← hs2]
      have e6 : s2.dl = s1.dl := by rw [← hs2]; rfl
      have e7 : s2.watches p = kept ++ [(c, (s1.cls c).a)] ++ todo := by rw [← hs2]; exact upd_same _ _ _
      have e8 : ∀ x, s2.value x = s1.value x := by rw [← hs2]; intro x; rfl
      have e9 : s2.am = s1.am := by rw [← hs2]
      by_cases hff : s1.value (s1.cls c).a = some false
      · rw [if_pos hff]
        have hs3 : ({ s1 with watches := upd s1.watches p (kept ++ [(c, (s1.cls c).a)] ++ todo), qhead := s1.trail.length } : S) = { s2 with qhead := s2.trail.length } := by
          rw [← hs2]
        rw [hs3]
        dsimp only
        have h3 := h2.confl fun c' w he => by rw [he.1, neg_var, e5, e6]; exact hl1
        have ham2 : ({ s2 with qhead := s2.trail.length } : S).am c = none := by show s2.am c = none; rw [e9]; exact ham1
        refine ⟨(f1.trans f2).trans (frame_qhead _ _), h3, Or.inl ⟨ham2, ?_⟩, ?_, ?_⟩
        · show c ∈ s2.att
          rw [e3]; exact hc1
        · rw [conflLits_none ham2]
          intro q hq
          have hq : q ∈ (s2.cls c).lits := hq
          show neg q ∈ s2.trail
          rw [e1] at hq
          rw [e2]
          by_cases e : q = (s1.cls c).a
          · rw [e, ← h1.t.false_iff]; exact hff
          · exact hothers q hq e
        · rw [conflLits_none ham2]
          refine ⟨neg p, ?_, ?_⟩
          · show neg p ∈ (s2.cls c).lits
            rw [e1, ← k1]; simp [Cls.lits]
          · show s2.level (neg p / 2) = s2.dl
            rw [neg_var, e5, e6, hl1]
      · rw [if_neg hff]
        have hv2 : s2.value (s1.cls c).a = none := by
          cases hx : s2.value (s1.cls c).a with
          | none => rfl
          | some b =>
            cases b with
            | false => rw [e8] at hx; exact absurd hx hff
            | true => rw [e8] at hx; exact absurd hx hft
        have h3 := h2.enqueueC (l := (s1.cls c).a) (c := c) hv2 (by rw [e3]; exact hc1) (by rw [e1]; exact ha1) (fun _ => by rw [e1])
          (by rw [e1, e2]; exact hothers)
        have hlv := enqueue_level h2.t (Or.inl hv2) (some c) (x := p) (by rw [e2]; exact hpt1)
        have hl3 : (enqueue s2 (s1.cls c).a (some c)).level (p / 2) = (enqueue s2 (s1.cls c).a (some c)).dl := by
          rw [hlv, e5, hl1, ← e6]; rfl
        have h4 := h3.done (by show s2.am c = none; rw [e9]; exact ham1) hl3 (y := (s1.cls c).a) (by show _ ∈ (s2.cls c).lits; rw [e1]; exact ha1) List.mem_cons_self (by
          show _ ∈ s2.watches p
          rw [e7]; simp)
        obtain ⟨f3, r⟩ := visit_spec (Φ := Φ) (J := J) (p := p) todo (kept ++ [(c, (s1.cls c).a)]) _ h4 e7
          (by rw [enqueue_proc _ _ _ h2.t.qle, e4]; exact hp1) hl3
        exact ⟨((f1.trans f2).trans (enqueue_frame h2.t hv2 _)).trans f3, r⟩

theorem next_spec {s : S} (h : s.qhead ≤ s.trail.length) :
    match s.next with
    | none => s.qhead = s.trail.length
    | some p => ∃ a b, s.trail = a ++ p :: b ∧ b.length = s.qhead := by
  unfold S.next
  cases hn : s.trail.reverse[s.qhead]? with
  | none =>
    rw [List.getElem?_eq_none_iff] at hn
    simp only [List.length_reverse] at hn ⊢
    omega
  | some p =>
    obtain ⟨hlt, he⟩ := List.getElem?_eq_some_iff.1 hn
    dsimp only
    have h1 : s.trail.reverse = s.trail.reverse.take s.qhead ++ p :: s.trail.reverse.drop (s.qhead + 1) := by
      rw [← he, ← List.drop_eq_getElem_cons hlt, List.take_append_drop]
    refine ⟨(s.trail.reverse.drop (s.qhead + 1)).reverse, (s.trail.reverse.take s.qhead).reverse, ?_, ?_⟩
    · have := congrArg List.reverse h1
      rw [List.reverse_reverse] at this
      conv_lhs => rw [this]
      simp
    · simp [h]

/-- propagation: all watched literals are dealt with, or there is a conflict -/
theorem propagate_spec {Φ : (Nat → Bool) → Prop} {J : Nat → Prop} : ∀ (k : Nat) (s s' : S) (r : Option Nat), PI Φ J s (fun _ _ => False) → propagate k s = some (s', r) →
    Frame s s' ∧ match r with
    | none => PI Φ J s' (fun _ _ => False) ∧ s'.qhead = s'.trail.length
    | some c => Confl Φ J s' c
  | 0, s, s', r, h, he => by cases he
  | k + 1, s, s', r, h, he => by
    unfold propagate at he
    have hn := next_spec h.t.qle
    cases hx : s.next with
    | none =>
      rw [hx] at he hn
      cases he
      exact ⟨Frame.refl s, h, hn⟩
    | some p =>
      rw [hx] at he hn
      dsimp only at he hn
      obtain ⟨a, b, e1, e2⟩ := hn
      have hqe : ({ s with qhead := s.qhead + 1 } : S).proc = p :: s.proc := by
        unfold S.proc
        dsimp only
        rw [e1, ← e2]
        have h1 : (a ++ p :: b).length - (b.length + 1) = a.length := by simp
        have h2 : (a ++ p :: b).length - b.length = (a ++ [p]).length := by simp; omega
        rw [h1, h2, List.drop_left, show a ++ p :: b = (a ++ [p]) ++ b from by simp, List.drop_left]
      have hsuf : (p :: b) <:+ s.trail := ⟨a, e1.symm⟩
      have hlev : s.level (p / 2) = s.dl := h.q p b hsuf (by omega)
      have h0 : PI Φ J { s with qhead := s.qhead + 1 } (fun c w => w = neg p ∧ (s.am c = none → (s.cls c).rest = [] → c ∈ (s.watchesBin p).map Prod.fst)) := by
        refine ⟨⟨h.d.idlt, h.d.nodupAtt, h.d.clNodup, h.d.range, h.d.wNodup, h.d.wMem, h.d.wAll, h.d.bMem, h.d.bAll, h.d.seen0, h.d.wOne⟩,
          ⟨h.t.tval, h.t.trange, h.t.tlev, h.t.tdup, h.t.treason, h.t.tlimS, h.t.tlimLe, h.t.heapAll, ?_⟩, ⟨h.m.db, h.m.imp0, h.m.jcl, h.m.jtr⟩, ?_, ?_, ?_⟩
        · show s.qhead + 1 ≤ s.trail.length
          rw [e1, ← e2]; simp
        · intro l rest hl hq
          exact h.q l rest hl (Nat.le_of_succ_le hq)
        · intro c hc w hw hp hex
          rw [hqe, List.mem_cons] at hp
          rcases hp with hp | hp
          · have hwp : w = neg p := by rw [← hp, neg_neg]
            refine absurd ⟨hwp, fun _ hr => ?_⟩ hex
            have := h.d.bAll c hc hr w hw
            rw [hp] at this
            exact this
          · exact h.w c hc w hw hp not_false
        · obtain ⟨h1, h2, h3, h4, h5, h6, h7, h8, h9, h10, h11, h12, h13, h14, h15, h16⟩ := h.a
          refine ⟨h1, h2, h3, h4, h5, h6, h7, h8, h9, h10, h11, h12, h13, h14, ?_, h16⟩
          intro c hc k hk x hx hpx hex
          rw [hqe, List.mem_cons] at hpx
          rcases hpx with rfl | hpx
          · exact absurd ⟨rfl, fun e => by rw [hk] at e; cases e⟩ hex
          · exact h15 c hc k hk x hx hpx not_false
      have hp0 : p ∈ ({ s with qhead := s.qhead + 1 } : S).proc := by rw [hqe]; exact List.mem_cons_self
      obtain ⟨f1, g1, g2, g4, g3, r1⟩ := visitBin_spec (Φ := Φ) (J := J) (p := p) (s.watchesBin p) { s with qhead := s.qhead + 1 } h0 (fun e he => he) hp0 hlev
      generalize hvb : visitBin { s with qhead := s.qhead + 1 } (s.watchesBin p) = vb at he f1 g1 g2 g3 g4 r1
      obtain ⟨s1, o1⟩ := vb
      have f1' : Frame s s1 := (frame_qhead s (s.qhead + 1)).trans f1
      cases o1 with
      | some c => cases he; exact ⟨f1', r1⟩
      | none =>
        dsimp only at he r1 g1 g2 g3 g4
        have hl1 : s1.level (p / 2) = s1.dl := by
          rw [f1'.level p (hsuf.subset List.mem_cons_self), hlev, S.dl, S.dl, f1'.trailLim]
        have h1 : PI Φ J s1 (fun c w => w = neg p ∧ c ∈ (s1.watches p).map Prod.fst) := by
          refine ⟨r1.d, r1.t, r1.m, r1.q, r1.w.mono ?_, r1.a.mono ?_⟩
          · intro c hc w hw hpw he hne
            refine absurd ⟨he.1, ?_⟩ hne
            have := r1.d.wAll c hc (by rw [g1]; exact he.2 (by have := r1.a.att c hc; rw [g4] at this; exact this)) w hw
            rw [he.1, neg_neg] at this
            exact this
          · intro c hc k hk x hx hpx he hne
            refine absurd ⟨he.1, ?_⟩ hne
            have := r1.a.wa c hc k hk x hx
            rw [neg_inj he.1] at this
            exact this
        obtain ⟨f2, r2⟩ := visit_spec (Φ := Φ) (J := J) (p := p) (s1.watches p) [] s1 h1 rfl g3 hl1
        generalize hv : visit p s1 [] (s1.watches p) = v at he f2 r2
        obtain ⟨s2, o2⟩ := v
        cases o2 with
        | some c => cases he; exact ⟨f1'.trans f2, r2⟩
        | none =>
          obtain ⟨f3, r3⟩ := propagate_spec k s2 s' r r2 he
          exact ⟨(f1'.trans f2).trans f3, r3⟩

end Verif.Sat
