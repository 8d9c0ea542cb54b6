import Verif.Sat.Props
/-!
# Backbones (sat/backbone.go)

The core solver is the one of `Verif.Sat.Model`.  Heuristic choices and the handler are the parameters `R n` of the `n`-th call of the solver; the polarity that is
reset while a backbone is computed (core.go:1244-1260) is such a choice.
-/
namespace Verif.Sat

/-- backbone.go:9-16 -/
inductive BBSort
  | pos
  | neg
  | both
deriving DecidableEq

/-- backbone.go:275-285 `isBothOrPositive`, `isBothOrNegative` -/
def BBSort.wants (k : BBSort) (phase : Bool) : Bool := match k, phase with
  | .both, _ => true
  | .pos, true => true
  | .neg, false => true
  | _, _ => false

/-- core.go:61-63: candidates, assumptions, results; `none` is `TristateUndef` -/
structure BB where
  cands : List Nat := []
  asm : List Nat := []
  map : Nat → Option Bool := fun _ => none

/-- the model of the last call -/
def S.mval (s : S) (v : Nat) : Bool := s.model[v]?.getD false

/-- literal.go `MkLit` -/
def litOf (v : Nat) (phase : Bool) : Nat := if phase then 2 * v else 2 * v + 1

/-- backbone.go:266-273 `addBackboneLiteral` -/
def BB.add (b : BB) (l : Nat) : BB := { b with map := upd b.map (l / 2) (some (l % 2 == 0)), asm := b.asm ++ [l] }

/-- backbone.go:221-223 `isUpZeroLit` -/
def isUpZero (s : S) (v : Nat) : Bool := s.level v == 0

/-- backbone.go:252-263: the loop of `isUnit` over the literals of an at-most clause of cardinality `card` -/
def unitAm (s : S) (l card : Nat) : List Nat → Nat → Bool
  | [], _ => false
  | q :: qs, n =>
    if l / 2 ≠ q / 2 ∧ s.mval (q / 2) = true then
      if n + 1 = card then true else unitAm s l card qs (n + 1)
    else unitAm s l card qs n

/-- backbone.go:242-264 `isUnit`: no other literal of the clause holds in the model; for an at-most clause: the other literals use it up -/
def isUnit (s : S) (l c : Nat) : Bool := match s.am c with
  | none => (s.cls c).lits.all fun q => q == l || !lv s.mval q
  | some k => unitAm s l k.card k.lits 0

/-- backbone.go:225-240 `isRotatable` -/
def isRotatable (s : S) (l : Nat) : Bool :=
  (s.reason (l / 2)).isNone && (s.watches (Sat.neg l)).all (fun e => !isUnit s l e.1) && (s.watchesBin (Sat.neg l)).all fun e => !isUnit s l e.1

/-- backbone.go:143-156: a variable in `createInitialCandidates` -/
def initVar (k : BBSort) (s : S) (b : BB) (v : Nat) : BB :=
  let l := litOf v (s.mval v)
  if isUpZero s v then b.add l
  else if k.wants (s.mval v) && !isRotatable s l then { b with cands := b.cands ++ [l] }
  else b

/-- backbone.go:162-172: a candidate in `refineUpperBound` -/
def refineLit (s : S) (b : BB) (l : Nat) : BB :=
  if isUpZero s (l / 2) then BB.add { b with cands := b.cands.erase l } l
  else if !lv s.mval l then { b with cands := b.cands.erase l }
  else if isRotatable s l then { b with cands := b.cands.erase l }
  else b

/-- backbone.go:159-173 `refineUpperBound` -/
def refineUB (s : S) (b : BB) : BB := b.cands.foldl (refineLit s) b

/-- backbone.go:126-138 with `solveWithLit` (175-180): at most `k` further candidates are tested.  Outer `none`: fuel; inner `none`: cancelled. -/
def bbLoop (fuel : Nat) (R : Nat → Run) : Nat → Nat → BB → W → Option (Option BB × W)
  | 0, _, b, w => some (some b, w)
  | k + 1, n, b, w =>
    match b.cands.getLast? with
    | none => some (some b, w)
    | some l =>
      let b := { b with cands := b.cands.dropLast }
      match w.step fuel (.solve (R n) (b.asm ++ [Sat.neg l])) with
      | some (w, .verdict none) => some (none, w)
      | some (w, .verdict (some true)) => bbLoop fuel R k (n + 1) (refineUB w.s b) w
      | some (w, .verdict (some false)) => bbLoop fuel R k (n + 1) (b.add l) w
      | _ => none

/-- backbone.go:22-27 `Backbone` of a satisfiable formula -/
structure Res (α : Type) where
  pos : List α
  neg : List α
  opt : List α

/-- backbone.go:182-219 `buildBackbone`; `idx` is `name2idx` -/
def buildBB {α : Type} (k : BBSort) (idx : α → Option Nat) (map : Nat → Option Bool) (vars : List α) : Res α where
  pos := if k.wants true then vars.filter fun a => match idx a with | none => false | some i => map i == some true else []
  neg := if k.wants false then vars.filter fun a => match idx a with | none => false | some i => map i == some false else []
  opt := if k = .both then vars.filter fun a => match idx a with | none => true | some i => map i == none else []

/-- backbone.go:78-93, between saving and loading the state.  Inner `none`: cancelled; `some none`: unsatisfiable. -/
def bbCore {α : Type} (fuel : Nat) (R : Nat → Run) (k : BBSort) (idx : α → Option Nat) (vars : List α) (w : W) : Option (Option (Option (Res α)) × W) :=
  match w.step fuel (.solve (R 0) []) with
  | some (w, .verdict none) => some (none, w)
  | some (w, .verdict (some false)) => some (some none, w)
  | some (w, .verdict (some true)) =>
    let b := (vars.filterMap idx).foldl (initVar k w.s) {}
    match bbLoop fuel R b.cands.length 1 b w with
    | none => none
    | some (none, w) => some (none, w)
    | some (some b, w) => some (some (some (buildBB k idx b.map vars)), w)
  | _ => none

/-- backbone.go:64-99 `ComputeBackboneWithHandler` after the first event -/
def backbone {α : Type} (fuel : Nat) (R : Nat → Run) (k : BBSort) (idx : α → Option Nat) (vars : List α) (w : W) : Option (Option (Option (Res α)) × W) :=
  match w.step fuel .save with
  | none => none
  | some (w1, _) =>
    match bbCore fuel R k idx vars w1 with
    | none => none
    | some (r, w2) =>
      match w2.step fuel (.load w.handles.length) with
      | some (w3, .bool true) => some (r, w3)
      | _ => none -- panic

/-! ## the state after a SAT answer -/

/-- what is known about the solver after a call that answered SAT: `f` is the state at the moment of the answer -/
structure AfterSat (Φ : (Nat → Bool) → Prop) (f s : S) : Prop where
  pi : PI Φ TT f (fun _ _ => False)
  q : f.qhead = f.trail.length
  all : ∀ v < f.nVars, f.val v ≠ none
  back : ∀ u, f.Holds u → Φ u
  un : ∀ l ∈ f.units, l ∈ f.trail ∧ f.level (l / 2) = 0
  nVars : s.nVars = f.nVars
  level : s.level = f.level
  reason : s.reason = f.reason
  cls : s.cls = f.cls
  watches : s.watches = f.watches
  watchesBin : s.watchesBin = f.watchesBin
  am : s.am = f.am
  model : ∀ v < f.nVars, s.mval v = (f.val v == some true)

theorem cancel_keeps (s : S) (n : Nat) : (cancelUntil s n).nVars = s.nVars ∧ (cancelUntil s n).level = s.level ∧ (cancelUntil s n).reason = s.reason ∧ (cancelUntil s n).cls = s.cls ∧
    (cancelUntil s n).watches = s.watches ∧ (cancelUntil s n).watchesBin = s.watchesBin ∧ (cancelUntil s n).am = s.am ∧ (cancelUntil s n).model = s.model := by
  unfold cancelUntil
  split
  · split
    · exact ⟨rfl, rfl, rfl, rfl, rfl, rfl, rfl, rfl⟩
    · exact ⟨rfl, rfl, rfl, rfl, rfl, rfl, rfl, rfl⟩
  · exact ⟨rfl, rfl, rfl, rfl, rfl, rfl, rfl, rfl⟩

theorem solve_after {Φ : (Nat → Bool) → Prop} {asm : List Nat} {cfg : Min} {fuel : Nat} {O : Nat → Choice} {start finish : Bool} {s s' : S}
    (hcf : cfg = .basic → s.ams = []) (hr : ∀ n, (O n).resume = true) (hasm : ∀ p ∈ asm, p / 2 < s.nVars) (h : RS Φ s) (he : solve cfg fuel O start finish asm s = some (some true, s')) :
    ∃ f, AfterSat Φ f s' := by
  unfold solve at he
  by_cases hs : start = false
  · rw [if_pos hs] at he; cases he
  rw [if_neg hs] at he
  dsimp only at he
  by_cases hok : s.ok = false
  · rw [if_pos hok] at he; cases he
  rw [if_neg hok] at he
  have hok : s.ok = true := by simpa using hok
  obtain ⟨r1, r2, r3, r4⟩ := h.run hok
  cases hsl : searchLoop cfg fuel O asm fuel 0 { s with model := [], conflict := [] } with
  | none => rw [hsl] at he; cases he
  | some x =>
    obtain ⟨b, s1⟩ := x
    rw [hsl] at he
    dsimp only at he
    have hx0 := h.sx hok asm
    have hso := searchLoop_spec (Φ := Φ) hr fuel 0 { s with model := [], conflict := [] } b s1 hcf hasm ⟨r1.irrel rfl, ⟨hx0.un, hx0.hr, hx0.a1, hx0.a2⟩⟩ hsl
    have ev0 : Evo s { s with model := [], conflict := [] } := ⟨rfl, rfl, rfl, rfl, fun _ _ => .refl _, fun _ hc => Or.inl ⟨hc, .refl _, rfl⟩, List.prefix_refl _, rfl, fun _ => .refl _⟩
    cases b with
    | false =>
      simp only [Bool.false_eq_true, ↓reduceIte] at he
      injection he with he
      injection he with e1 e2
      cases finish <;> cases e1
    | true =>
      obtain ⟨i1, i2, i3, i4, i5, i6, i7⟩ := hso
      rw [if_pos rfl] at he
      injection he with he
      injection he with e1 e2
      obtain ⟨k1, k2, k3, k4, k5, k6, k8, k7⟩ := cancel_keeps { s1 with model := (List.range s1.nVars).map fun v => s1.val v == some true } 0
      refine ⟨s1, i1.pi, i5, i7, fun u hu => r4 u ((ev0.trans i2).holds hu), i1.sx.un, ?_, ?_, ?_, ?_, ?_, ?_, ?_, ?_⟩
      · rw [← e2, k1]
      · rw [← e2, k2]
      · rw [← e2, k3]
      · rw [← e2, k4]
      · rw [← e2, k5]
      · rw [← e2, k6]
      · rw [← e2, k8]
      · intro v hv
        unfold S.mval
        rw [← e2, k7]
        simp [hv]

theorem AfterSat.model_sat {Φ : (Nat → Bool) → Prop} {f s : S} (h : AfterSat Φ f s) : Φ s.mval :=
  h.back _ ⟨fun _ hc => sat_model h.pi h.q h.all h.model (List.mem_append_left _ hc), fun l hl => lv_of_trail h.pi.t h.model (h.un l hl).1,
    fun _ hc _ hk => sat_am h.pi h.q h.all h.model hc hk⟩

/-- the literal that holds in the model is on the trail -/
theorem AfterSat.trail {Φ : (Nat → Bool) → Prop} {f s : S} (h : AfterSat Φ f s) {l : Nat} (hn : l / 2 < f.nVars) : lv s.mval l = true ↔ l ∈ f.trail := by
  refine ⟨fun hl => ?_, lv_of_trail h.pi.t h.model⟩
  rw [← h.pi.t.tval]
  cases hv : f.value l with
  | none => exact absurd ((value_none f l).1 hv) (h.all _ hn)
  | some b =>
    cases b with
    | true => rfl
    | false =>
      have := lv_of_trail h.pi.t h.model ((h.pi.t.false_iff l).1 hv)
      rw [lv_neg, hl] at this; cases this

/-- literals of level 0 are implied -/
theorem AfterSat.upZero {Φ : (Nat → Bool) → Prop} {f s : S} (h : AfterSat Φ f s) {l : Nat} (hn : l / 2 < f.nVars) (hl : lv s.mval l = true) (h0 : isUpZero s (l / 2) = true) :
    ∀ u, Φ u → lv u l = true := by
  have : f.level (l / 2) = 0 := by
    unfold isUpZero at h0
    rw [h.level] at h0
    simpa using h0
  exact h.pi.m.imp0 l ((h.trail hn).1 hl) this

/-- the assignment with another value for a variable -/
def flip (u : Nat → Bool) (v : Nat) : Nat → Bool := upd u v (!u v)

theorem lv_flip {u : Nat → Bool} {v l : Nat} (h : l / 2 ≠ v) : lv (flip u v) l = lv u l := by
  unfold lv flip
  rw [upd_ne _ _ h]

theorem lv_flip_self {u : Nat → Bool} {l : Nat} : lv (flip u (l / 2)) l = !lv u l := by
  unfold lv flip
  rw [upd_same]
  split <;> simp

/-- If the literal is the only true one of a clause then it is watched: at least one of the two watchers has the other watched literal as its blocker, so that not
both watched literals can be false behind a true blocker. -/
theorem AfterSat.watched {Φ : (Nat → Bool) → Prop} {f s : S} (h : AfterSat Φ f s) {l c : Nat} (hc : c ∈ f.att) (hlc : l ∈ (f.cls c).lits)
    (ho : ∀ q ∈ (f.cls c).lits, q ≠ l → lv s.mval q = false) : l = (f.cls c).a ∨ l = (f.cls c).b := by
  by_cases hr : (f.cls c).rest = []
  · simpa [Cls.lits, hr] using hlc
  by_contra hne
  rw [not_or] at hne
  have hproc : f.proc = f.trail := by unfold S.proc; rw [h.q]; simp
  have key : ∀ w o, (w = (f.cls c).a ∨ w = (f.cls c).b) → w ≠ l → o ≠ l → o ∈ (f.cls c).lits → (c, o) ∉ f.watches (neg w) := by
    intro w o hw hwl hol hom hco
    have hwm : w ∈ (f.cls c).lits := by rcases hw with rfl | rfl <;> simp [Cls.lits]
    have hwn := h.pi.d.range c hc w hwm
    have hneg : neg w ∈ f.trail := by
      rw [← h.trail (by rw [neg_var]; exact hwn), lv_neg, ho w hwm hwl]; rfl
    obtain ⟨y, y1, y2, _, y4⟩ := h.pi.w c hc w hw (by rw [hproc]; exact hneg) not_false
    have hy : y = l := by
      by_contra hyl
      have h1 := (h.trail (h.pi.t.trange y y2)).2 y2
      rw [ho y y1 hyl] at h1; cases h1
    have hyo : y = o := by
      have hnd := h.pi.d.wNodup (neg w)
      have := List.inj_on_of_nodup_map hnd (y4 hr) hco rfl
      exact (Prod.mk.inj this).2
    exact hol (hyo ▸ hy)
  rcases h.pi.d.wOne c hc hr with h1 | h1
  · exact key _ _ (Or.inl rfl) (fun e => hne.1 e.symm) (fun e => hne.2 e.symm) (by simp [Cls.lits]) h1
  · exact key _ _ (Or.inr rfl) (fun e => hne.2 e.symm) (fun e => hne.1 e.symm) (by simp [Cls.lits]) h1

/-- the loop of `isUnit` says whether enough other literals are true -/
theorem unitAm_false {s : S} {l card : Nat} : ∀ (qs : List Nat) (n : Nat), n < card → unitAm s l card qs n = false →
    n + (qs.filter fun q => decide (l / 2 ≠ q / 2) && s.mval (q / 2)).length < card
  | [], n, h, _ => by simpa using h
  | q :: qs, n, h, he => by
    unfold unitAm at he
    by_cases hq : l / 2 ≠ q / 2 ∧ s.mval (q / 2) = true
    · rw [if_pos hq] at he
      by_cases hn : n + 1 = card
      · rw [if_pos hn] at he; cases he
      · rw [if_neg hn] at he
        have := unitAm_false qs (n + 1) (by omega) he
        rw [List.filter_cons_of_pos (by simp only [decide_eq_true hq.1, hq.2, Bool.and_self])]
        simp only [List.length_cons]
        omega
    · rw [if_neg hq] at he
      have := unitAm_false qs n h he
      rwa [List.filter_cons_of_neg (by simpa using hq)]

theorem length_filter_le_of {p q : Nat → Bool} : ∀ {l : List Nat}, (∀ x ∈ l, p x = true → q x = true) → (l.filter p).length ≤ (l.filter q).length
  | [], _ => Nat.le_refl _
  | x :: l, h => by
    have ih := length_filter_le_of (l := l) fun y hy => h y (List.mem_cons_of_mem _ hy)
    by_cases hp : p x = true
    · rw [List.filter_cons_of_pos hp, List.filter_cons_of_pos (h x List.mem_cons_self hp)]
      simpa using ih
    · rw [List.filter_cons_of_neg hp]
      refine Nat.le_trans ih ?_
      by_cases hq : q x = true
      · rw [List.filter_cons_of_pos hq]; simp
      · rw [List.filter_cons_of_neg hq]

/-- leaving out one element costs at most one -/
theorem length_filter_le_succ {p q : Nat → Bool} {x : Nat} : ∀ {l : List Nat}, l.Nodup → (∀ y ∈ l, y ≠ x → p y = true → q y = true) → (l.filter p).length ≤ (l.filter q).length + 1
  | [], _, _ => by simp
  | y :: l, hn, h => by
    rw [List.nodup_cons] at hn
    have hl := h
    by_cases hyx : y = x
    · subst hyx
      have h1 : (l.filter p).length ≤ (l.filter q).length :=
        length_filter_le_of fun z hz hp => h z (List.mem_cons_of_mem _ hz) (fun e => hn.1 (e ▸ hz)) hp
      have h2 : ((y :: l).filter p).length ≤ (l.filter p).length + 1 := by
        by_cases hp : p y = true
        · rw [List.filter_cons_of_pos hp]; simp
        · rw [List.filter_cons_of_neg hp]; exact Nat.le_succ _
      have h3 : (l.filter q).length ≤ ((y :: l).filter q).length := by
        by_cases hp : q y = true
        · rw [List.filter_cons_of_pos hp]; simp
        · rw [List.filter_cons_of_neg hp]
      omega
    · have ih := length_filter_le_succ (x := x) hn.2 fun z hz => h z (List.mem_cons_of_mem _ hz)
      by_cases hp : p y = true
      · rw [List.filter_cons_of_pos hp, List.filter_cons_of_pos (h y List.mem_cons_self hyx hp)]
        simpa using ih
      · rw [List.filter_cons_of_neg hp]
        refine Nat.le_trans ih ?_
        by_cases hq : q y = true
        · rw [List.filter_cons_of_pos hq]; simp
        · rw [List.filter_cons_of_neg hq]

/-- a rotatable literal can be flipped without violating an at-most clause -/
theorem AfterSat.rotatable_am {Φ : (Nat → Bool) → Prop} {f s : S} (h : AfterSat Φ f s) {l : Nat} (hl : lv s.mval l = true)
    (hr : isRotatable s l = true) {c : Nat} (hc : c ∈ f.ams) {k : Am} (hk : f.am c = some k) : (k.lits.filter (lv (flip s.mval (l / 2)))).length ≤ k.card := by
  have hnd := h.pi.a.nodup c hc k hk
  by_cases hx : neg l ∈ k.lits
  · have hne : ∀ y ∈ k.lits, y ≠ neg l → l / 2 ≠ y / 2 := by
      intro y hy hyn e
      have h1 := h.pi.a.pos c hc k hk y hy
      have h2 := h.pi.a.pos c hc k hk _ hx
      have h3 := neg_var l
      omega
    by_cases hw : neg l ∈ k.w
    · have hu : isUnit s l c = false := by
        unfold isRotatable at hr
        simp only [Bool.and_eq_true, List.all_eq_true, Bool.not_eq_true'] at hr
        obtain ⟨e, he, rfl⟩ := List.mem_map.1 (h.pi.a.wa c hc k hk _ hw)
        exact hr.1.2 e (by rw [h.watches]; exact he)
      unfold isUnit at hu
      rw [h.am, hk] at hu
      have h1 := unitAm_false k.lits 0 (by unfold Am.card; omega) hu
      refine Nat.le_trans (length_filter_le_succ (x := neg l) (q := fun q => decide (l / 2 ≠ q / 2) && s.mval (q / 2)) hnd fun y hy hyn hv => ?_) (by omega)
      have hv2 := hne y hy hyn
      rw [lv_flip (fun e => hv2 e.symm), lv, if_pos (h.pi.a.pos c hc k hk y hy)] at hv
      simp only [decide_eq_true hv2, hv, Bool.and_self]
    · have h1 := sat_amW h.pi h.q h.all h.model hc hk
      have h2 : (k.w.filter (lv (flip s.mval (l / 2)))).length ≤ (k.w.filter (lv s.mval)).length := by
        refine length_filter_le_of fun y hy hv => ?_
        rwa [lv_flip (fun e => hne y (List.mem_append_left _ hy) (fun e2 => hw (e2 ▸ hy)) e.symm)] at hv
      unfold Am.lits Am.card
      rw [List.filter_append, List.length_append]
      have := List.length_filter_le (lv (flip s.mval (l / 2))) k.u
      omega
  · refine Nat.le_trans (length_filter_le_of fun y hy hv => ?_) (sat_am h.pi h.q h.all h.model hc hk)
    by_cases e : y / 2 = l / 2
    · rcases var_eq e with e2 | e2
      · rw [e2]; exact hl
      · exact absurd (e2 ▸ hy) hx
    · rwa [lv_flip e] at hv

/-- a rotatable literal can be flipped -/
theorem AfterSat.rotatable {Φ : (Nat → Bool) → Prop} {f s : S} (h : AfterSat Φ f s) {l : Nat} (hn : l / 2 < f.nVars) (hl : lv s.mval l = true) (h0 : isUpZero s (l / 2) = false)
    (hr : isRotatable s l = true) : Φ (flip s.mval (l / 2)) := by
  have hlv : f.level (l / 2) ≠ 0 := by
    unfold isUpZero at h0
    rw [h.level] at h0
    simpa using h0
  have hnu : ∀ c, f.am c = none → (c ∈ (f.watches (neg l)).map Prod.fst ∨ c ∈ (f.watchesBin (neg l)).map Prod.fst) → ∃ q ∈ (f.cls c).lits, q ≠ l ∧ lv s.mval q = true := by
    unfold isRotatable at hr
    rw [h.watches, h.watchesBin] at hr
    simp only [Bool.and_eq_true, List.all_eq_true, Bool.not_eq_true'] at hr
    intro c hca hc
    have hu : isUnit s l c = false := by
      rcases hc with hc | hc
      · obtain ⟨e, he, rfl⟩ := List.mem_map.1 hc
        exact hr.1.2 e he
      · obtain ⟨e, he, rfl⟩ := List.mem_map.1 hc
        exact hr.2 e he
    unfold isUnit at hu
    rw [h.am, hca, h.cls] at hu
    dsimp only at hu
    rw [List.all_eq_false] at hu
    obtain ⟨q, hq, hq2⟩ := hu
    simp only [Bool.or_eq_true, beq_iff_eq, Bool.not_eq_true', not_or, Bool.not_eq_false] at hq2
    exact ⟨q, hq, hq2.1, hq2.2⟩
  have hkeep : ∀ q, q ≠ l → lv s.mval q = true → lv (flip s.mval (l / 2)) q = true := by
    intro q hq hv
    rw [lv_flip]
    · exact hv
    · intro e
      rcases var_eq e with e | e
      · exact hq e
      · rw [e, lv_neg, hl] at hv; cases hv
  apply h.back
  refine ⟨fun c hc => ?_, fun q hq => ?_, fun c hc k hk => h.rotatable_am hl hr hc hk⟩
  · have hca : c ∈ f.att := List.mem_append_left _ hc
    suffices ∃ q ∈ (f.cls c).lits, q ≠ l ∧ lv s.mval q = true by
      obtain ⟨q, h1, h2, h3⟩ := this
      exact ⟨q, h1, hkeep q h2 h3⟩
    by_contra hno
    have ho : ∀ q ∈ (f.cls c).lits, q ≠ l → lv s.mval q = false := by
      intro q hq hne
      by_contra hv
      exact hno ⟨q, hq, hne, by simpa using hv⟩
    have hlc : l ∈ (f.cls c).lits := by
      obtain ⟨q, hq, hv⟩ := sat_model h.pi h.q h.all h.model hca
      by_cases e : q = l
      · exact e ▸ hq
      · exact absurd ⟨q, hq, e, hv⟩ hno
    have hw := h.watched hca hlc ho
    apply hno
    by_cases hrc : (f.cls c).rest = []
    · exact hnu c (h.pi.a.att c hca) (Or.inr (h.pi.d.bAll c hca hrc l hw))
    · exact hnu c (h.pi.a.att c hca) (Or.inl (h.pi.d.wAll c hca hrc l hw))
  · obtain ⟨h1, h2⟩ := h.un q hq
    refine hkeep q ?_ (lv_of_trail h.pi.t h.model h1)
    rintro rfl
    exact hlv h2

/-! ## the algorithm -/

theorem litOf_var (v : Nat) (x : Bool) : litOf v x / 2 = v := by unfold litOf; split <;> omega
theorem litOf_phase (v : Nat) (x : Bool) : (litOf v x % 2 == 0) = x := by
  unfold litOf
  cases x
  · rw [if_neg (by simp)]; have : (2 * v + 1) % 2 = 1 := by omega
    rw [this]; rfl
  · rw [if_pos rfl]; have : (2 * v) % 2 = 0 := by omega
    rw [this]; rfl

theorem lv_phase (u : Nat → Bool) (l : Nat) : lv u l = true ↔ u (l / 2) = (l % 2 == 0) := by
  unfold lv
  rcases Nat.mod_two_eq_zero_or_one l with h | h <;> simp [h]

theorem lv_litOf (u : Nat → Bool) (v : Nat) (x : Bool) : lv u (litOf v x) = true ↔ u v = x := by
  rw [lv_phase, litOf_var, litOf_phase]

/-- invariant of the computation for the variables `vs`; `u0` is the first model -/
structure BI (Φ : (Nat → Bool) → Prop) (N : Nat) (k : BBSort) (u0 : Nat → Bool) (vs : List Nat) (b : BB) : Prop where
  asmI : ∀ l ∈ b.asm, l / 2 < N ∧ ∀ u, Φ u → lv u l = true
  mapI : ∀ v x, b.map v = some x → ∀ u, Φ u → u v = x
  candI : ∀ l ∈ b.cands, l / 2 < N ∧ lv u0 l = true
  cov : ∀ v ∈ vs, ∀ x, k.wants x = true → (∀ u, Φ u → u v = x) → b.map v = some x ∨ litOf v x ∈ b.cands

section
variable {Φ : (Nat → Bool) → Prop} {N : Nat} {k : BBSort} {u0 : Nat → Bool} {vs : List Nat} {b : BB}

theorem BI.add (h : BI Φ N k u0 vs b) (h0 : Φ u0) {l : Nat} (hn : l / 2 < N) (hi : ∀ u, Φ u → lv u l = true) {cs : List Nat} (hs : ∀ c ∈ cs, c ∈ b.cands)
    (hk : ∀ c ∈ b.cands, c ≠ l → c ∈ cs) : BI Φ N k u0 vs (BB.add { b with cands := cs } l) := by
  refine ⟨?_, ?_, fun c hc => h.candI c (hs c hc), ?_⟩
  · intro x hx
    rcases List.mem_append.1 hx with hx | hx
    · exact h.asmI x hx
    · rw [List.mem_singleton.1 hx]; exact ⟨hn, hi⟩
  · intro v x hx u hu
    have hx : upd b.map (l / 2) (some (l % 2 == 0)) v = some x := hx
    by_cases e : v = l / 2
    · subst e
      rw [upd_same] at hx
      injection hx with hx
      rw [← hx]
      exact (lv_phase u l).1 (hi u hu)
    · rw [upd_ne _ _ e] at hx
      exact h.mapI v x hx u hu
  · intro v hv x hw hb
    show upd b.map (l / 2) (some (l % 2 == 0)) v = some x ∨ litOf v x ∈ cs
    by_cases e : v = l / 2
    · subst e
      rw [upd_same]
      refine Or.inl ?_
      rw [← (lv_phase u0 l).1 (hi u0 h0), hb u0 h0]
    · rw [upd_ne _ _ e]
      rcases h.cov v hv x hw hb with h1 | h1
      · exact Or.inl h1
      · refine Or.inr (hk _ h1 ?_)
        intro e2
        apply e
        rw [← e2, litOf_var]

theorem BI.drop (h : BI Φ N k u0 vs b) {l : Nat} {u : Nat → Bool} (hu : Φ u) (hl : lv u l = false) {cs : List Nat} (hs : ∀ c ∈ cs, c ∈ b.cands)
    (hk : ∀ c ∈ b.cands, c ≠ l → c ∈ cs) : BI Φ N k u0 vs { b with cands := cs } := by
  refine ⟨h.asmI, h.mapI, fun c hc => h.candI c (hs c hc), ?_⟩
  intro v hv x hw hb
  rcases h.cov v hv x hw hb with h1 | h1
  · exact Or.inl h1
  · refine Or.inr (hk _ h1 ?_)
    rintro rfl
    rw [(lv_litOf u v x).2 (hb u hu)] at hl; cases hl

theorem mem_erase_keep {cs : List Nat} {l : Nat} : (∀ c ∈ cs.erase l, c ∈ cs) ∧ ∀ c ∈ cs, c ≠ l → c ∈ cs.erase l :=
  ⟨fun _ hc => List.mem_of_mem_erase hc, fun _ hc hne => (List.mem_erase_of_ne hne).2 hc⟩

theorem refineLit_spec {f s : S} (hs : AfterSat Φ f s) (hN : f.nVars = N) (h0 : Φ u0) (h : BI Φ N k u0 vs b) {l : Nat} (hl : l / 2 < N ∧ lv u0 l = true) :
    BI Φ N k u0 vs (refineLit s b l) := by
  have hn : l / 2 < f.nVars := by rw [hN]; exact hl.1
  have hnn : neg l / 2 < f.nVars := by rw [neg_var]; exact hn
  unfold refineLit
  by_cases h1 : isUpZero s (l / 2) = true
  · rw [if_pos h1]
    refine h.add h0 hl.1 ?_ mem_erase_keep.1 mem_erase_keep.2
    cases hv : lv s.mval l with
    | true => exact hs.upZero hn hv h1
    | false =>
      have := hs.upZero hnn (by rw [lv_neg, hv]; rfl) (by rw [neg_var]; exact h1) u0 h0
      rw [lv_neg, hl.2] at this; cases this
  rw [if_neg h1]
  cases hv : lv s.mval l with
  | false =>
    rw [if_pos (by rfl)]
    exact h.drop hs.model_sat hv mem_erase_keep.1 mem_erase_keep.2
  | true =>
    rw [if_neg (by simp)]
    by_cases hr : isRotatable s l = true
    · rw [if_pos hr]
      refine h.drop (hs.rotatable hn hv (by simpa using h1) hr) ?_ mem_erase_keep.1 mem_erase_keep.2
      rw [lv_flip_self, hv]; rfl
    · rw [if_neg hr]; exact h

theorem refineLit_len (s : S) (b : BB) (l : Nat) : (refineLit s b l).cands.length ≤ b.cands.length := by
  unfold refineLit
  have : (b.cands.erase l).length ≤ b.cands.length := List.Sublist.length_le List.erase_sublist
  split
  · exact this
  · split
    · exact this
    · split
      · exact this
      · exact Nat.le_refl _

theorem refine_spec {f s : S} (hs : AfterSat Φ f s) (hN : f.nVars = N) (h0 : Φ u0) : ∀ (ls : List Nat) (b : BB), BI Φ N k u0 vs b → (∀ l ∈ ls, l / 2 < N ∧ lv u0 l = true) →
    BI Φ N k u0 vs (ls.foldl (refineLit s) b) ∧ (ls.foldl (refineLit s) b).cands.length ≤ b.cands.length
  | [], b, h, _ => ⟨h, Nat.le_refl _⟩
  | l :: ls, b, h, hl => by
    obtain ⟨h1, h2⟩ := refine_spec hs hN h0 ls (refineLit s b l) (refineLit_spec hs hN h0 h (hl l List.mem_cons_self)) fun x hx => hl x (List.mem_cons_of_mem _ hx)
    exact ⟨h1, Nat.le_trans h2 (refineLit_len s b l)⟩

theorem init_spec {f s : S} (hs : AfterSat Φ f s) (hN : f.nVars = N) : ∀ (ls done : List Nat) (b : BB), BI Φ N k s.mval done b → (∀ v ∈ ls, v < N) →
    BI Φ N k s.mval (done ++ ls) (ls.foldl (initVar k s) b)
  | [], done, b, h, _ => by rw [List.append_nil]; exact h
  | v :: ls, done, b, h, hl => by
    rw [show done ++ v :: ls = (done ++ [v]) ++ ls by simp]
    refine init_spec hs hN ls (done ++ [v]) _ ?_ fun x hx => hl x (List.mem_cons_of_mem _ hx)
    have hv := hl v List.mem_cons_self
    have hlm : lv s.mval (litOf v (s.mval v)) = true := (lv_litOf _ _ _).2 rfl
    have hvar := litOf_var v (s.mval v)
    have hn : litOf v (s.mval v) / 2 < f.nVars := by rw [hvar, hN]; exact hv
    unfold initVar
    dsimp only
    by_cases h1 : isUpZero s v = true
    · rw [if_pos h1]
      have himp := hs.upZero hn hlm (by rw [hvar]; exact h1)
      have hb := h.add hs.model_sat (by rw [hvar]; exact hv) himp (cs := b.cands) (fun _ h => h) (fun _ h _ => h)
      refine ⟨hb.asmI, hb.mapI, hb.candI, fun w hw x hwt hbb => ?_⟩
      rcases List.mem_append.1 hw with hw | hw
      · exact hb.cov w hw x hwt hbb
      · rw [List.mem_singleton.1 hw] at hbb ⊢
        refine Or.inl ?_
        show upd b.map (litOf v (s.mval v) / 2) (some (litOf v (s.mval v) % 2 == 0)) v = some x
        rw [hvar, upd_same, litOf_phase, hbb _ hs.model_sat]
    rw [if_neg h1]
    have h1 : isUpZero s v = false := by simpa using h1
    by_cases h2 : (k.wants (s.mval v) && !isRotatable s (litOf v (s.mval v))) = true
    · rw [if_pos h2]
      refine ⟨h.asmI, h.mapI, ?_, ?_⟩
      · intro l hlm'
        rcases List.mem_append.1 hlm' with hlm' | hlm'
        · exact h.candI l hlm'
        · rw [List.mem_singleton.1 hlm', hvar]; exact ⟨hv, hlm⟩
      · intro w hw x hwt hbb
        rcases List.mem_append.1 hw with hw | hw
        · rcases h.cov w hw x hwt hbb with h3 | h3
          · exact Or.inl h3
          · exact Or.inr (List.mem_append_left _ h3)
        · rw [List.mem_singleton.1 hw] at hbb ⊢
          rw [← hbb _ hs.model_sat]
          exact Or.inr (by simp)
    · rw [if_neg h2]
      refine ⟨h.asmI, h.mapI, h.candI, fun w hw x hwt hbb => ?_⟩
      rcases List.mem_append.1 hw with hw | hw
      · exact h.cov w hw x hwt hbb
      · exfalso
        rw [List.mem_singleton.1 hw] at hbb
        have hx := hbb _ hs.model_sat
        rw [hx] at h2 hlm hvar hn
        rw [hwt] at h2
        simp only [Bool.true_and, Bool.not_eq_true', Bool.not_eq_false] at h2
        have hr := hs.rotatable hn hlm (by rw [hvar]; exact h1) h2
        have := (lv_litOf _ _ _).2 (hbb _ hr)
        rw [lv_flip_self, hlm] at this
        cases this
end

theorem wstep_solve {fuel : Nat} {w w' : W} {r : Run} {asm : List Nat} {x : Ans} (h : w.step fuel (.solve r asm) = some (w', x)) :
    (∀ l ∈ asm, l / 2 < w.s.nVars) ∧ ∃ v, x = .verdict v ∧ Sat.solve r.cfg fuel r.O r.start r.finish asm w.s = some (v, w'.s) := by
  unfold W.step at h
  dsimp only at h
  by_cases hr : ∀ l ∈ asm, l / 2 < w.s.nVars
  · rw [if_pos hr] at h
    cases hs : Sat.solve r.cfg fuel r.O r.start r.finish asm w.s with
    | none => rw [hs] at h; cases h
    | some y =>
      obtain ⟨v, s'⟩ := y
      rw [hs] at h
      cases h
      exact ⟨hr, v, rfl, rfl⟩
  · rw [if_neg hr] at h; cases h

theorem step_nVars {fuel : Nat} {w w' : W} {a : A} {r : Run} {asm : List Nat} {x : Ans} {mb : Bool} (hi : Inv mb w a) (hc : r.Calm mb) (h : w.step fuel (.solve r asm) = some (w', x)) :
    w'.s.nVars = w.s.nVars ∧ w'.handles = w.handles := by
  obtain ⟨h1, v, _, h2⟩ := wstep_solve h
  refine ⟨(solve_spec (hi.cf hc) hc.1 h1 hi.rs h2).2.1.nVars, ?_⟩
  unfold W.step at h
  dsimp only at h
  rw [if_pos h1, h2] at h
  injection h with h
  injection h with h _
  rw [← h]

theorem bbLoop_spec {fuel : Nat} {R : Nat → Run} {mb : Bool} (hR : ∀ n, (R n).Calm mb) {a : A} {N : Nat} {k : BBSort} {u0 : Nat → Bool} {vs : List Nat} (h0 : Models a.cur u0) :
    ∀ (m n : Nat) (b : BB) (w : W) (r : Option BB) (w' : W), Inv mb w a → w.s.nVars = N → BI (Models a.cur) N k u0 vs b → b.cands.length ≤ m →
    bbLoop fuel R m n b w = some (r, w') → Inv mb w' a ∧ w'.handles = w.handles ∧ ∀ b', r = some b' → BI (Models a.cur) N k u0 vs b' ∧ b'.cands = []
  | 0, n, b, w, r, w', hi, _, hb, hle, he => by
    cases he
    refine ⟨hi, rfl, fun b' e => ?_⟩
    cases e
    exact ⟨hb, List.length_eq_zero_iff.1 (Nat.le_zero.1 hle)⟩
  | m + 1, n, b, w, r, w', hi, hN, hb, hle, he => by
    unfold bbLoop at he
    cases hl : b.cands.getLast? with
    | none =>
      rw [hl] at he
      cases he
      refine ⟨hi, rfl, fun b' e => ?_⟩
      cases e
      exact ⟨hb, List.getLast?_eq_none_iff.1 hl⟩
    | some l =>
      rw [hl] at he
      dsimp only at he
      obtain ⟨cs, hcs⟩ := List.getLast?_eq_some_iff.1 hl
      have hdl : b.cands.dropLast = cs := by rw [hcs]; simp
      rw [hdl] at he
      have hlm : l ∈ b.cands := by rw [hcs]; simp
      have hsub : ∀ c ∈ cs, c ∈ b.cands := fun c hc => by rw [hcs]; exact List.mem_append_left _ hc
      have hkeep : ∀ c ∈ b.cands, c ≠ l → c ∈ cs := by
        intro c hc hne
        rw [hcs] at hc
        rcases List.mem_append.1 hc with hc | hc
        · exact hc
        · exact absurd (List.mem_singleton.1 hc) hne
      have hlen : cs.length ≤ m := by
        have : b.cands.length = cs.length + 1 := by rw [hcs]; simp
        omega
      obtain ⟨hl1, hl2⟩ := hb.candI l hlm
      cases hst : w.step fuel (.solve (R n) (b.asm ++ [neg l])) with
      | none => rw [hst] at he; cases he
      | some x =>
        obtain ⟨w1, x⟩ := x
        obtain ⟨ha, v, rfl, hsv⟩ := wstep_solve hst
        obtain ⟨hi1, hv⟩ := step_spec (o := .solve (R n) (b.asm ++ [neg l])) hi (hR n) hst
        have hi1 : Inv mb w1 a := hi1
        obtain ⟨hn1, hh1⟩ := step_nVars hi (hR n) hst
        rw [hst] at he
        cases v with
        | none => cases he; exact ⟨hi1, hh1, fun _ e => by cases e⟩
        | some v =>
          cases v with
          | true =>
            dsimp only at he
            obtain ⟨f, hf⟩ := solve_after (hi.cf (hR n)) (hR n).1 ha hi.rs hsv
            have hvl := hv true rfl
            have hm := hvl.2 w1.s.mval fun v hv => by
              unfold S.mval
              rw [List.getElem?_eq_getElem (by rw [hvl.1]; exact hv)]; rfl
            have hdrop : BI (Models a.cur) N k u0 vs { b with cands := cs } := by
              refine hb.drop hm.1 (l := l) ?_ hsub hkeep
              have := hm.2 (neg l) (by simp)
              rw [lv_neg] at this
              simpa using this
            obtain ⟨h1, h2⟩ := refine_spec hf (by rw [← hf.nVars, hn1, hN]) h0 cs { b with cands := cs } hdrop fun x hx => hb.candI x (hsub x hx)
            obtain ⟨j1, j2, j3⟩ := bbLoop_spec hR h0 m (n + 1) _ w1 r w' hi1 (hn1.trans hN) h1 (Nat.le_trans h2 hlen) he
            exact ⟨j1, j2.trans hh1, j3⟩
          | false =>
            dsimp only at he
            have himp : ∀ u, Models a.cur u → lv u l = true := by
              intro u hu
              obtain ⟨g1, g2⟩ := hv false rfl
              obtain ⟨x, hx, hxv⟩ := g2 u hu
              have := g1 x hx
              rcases List.mem_append.1 this with hxm | hxm
              · have := (hb.asmI _ hxm).2 u hu
                rw [lv_neg, hxv] at this; cases this
              · have hxl : x = l := neg_inj (List.mem_singleton.1 hxm)
                rw [← hxl]; exact hxv
            obtain ⟨j1, j2, j3⟩ := bbLoop_spec hR h0 m (n + 1) _ w1 r w' hi1 (hn1.trans hN) (hb.add h0 hl1 himp hsub hkeep) hlen he
            exact ⟨j1, j2.trans hh1, j3⟩

/-! ## C22 -/

/-- specification: `ρ` is, on the named variables of the solver, part of a model of the clauses -/
def NModels {α : Type} (idx : α → Option Nat) (Γ : List (List Nat)) (ρ : α → Bool) : Prop := ∃ u, Models Γ u ∧ ∀ a i, idx a = some i → ρ a = u i

/-- specification: `ρ a = x` in all models -/
def Backbone {α : Type} (idx : α → Option Nat) (Γ : List (List Nat)) (a : α) (x : Bool) : Prop := ∀ ρ, NModels idx Γ ρ → ρ a = x

theorem backbone_known {α : Type} {idx : α → Option Nat} {Γ : List (List Nat)} {a : α} {i : Nat} (hi : idx a = some i) (x : Bool) :
    Backbone idx Γ a x ↔ ∀ u, Models Γ u → u i = x := by
  constructor
  · intro h u hu
    have := h (fun b => match idx b with | none => false | some j => u j) ⟨u, hu, fun b j hj => by simp [hj]⟩
    simpa [hi] using this
  · rintro h ρ ⟨u, hu, hρ⟩
    rw [hρ a i hi]; exact h u hu

theorem backbone_unknown {α : Type} {idx : α → Option Nat} {Γ : List (List Nat)} {a : α} (hi : idx a = none) (hs : ∃ u, Models Γ u) (x : Bool) : ¬ Backbone idx Γ a x := by
  intro h
  obtain ⟨u, hu⟩ := hs
  have := h (fun b => match idx b with | none => !x | some j => u j) ⟨u, hu, fun b j hj => by simp [hj]⟩
  simp [hi] at this

/-- specification of a result for the variables `vars` -/
def ResOk {α : Type} (k : BBSort) (idx : α → Option Nat) (vars : List α) (Γ : List (List Nat)) : Option (Res α) → Prop
  | none => ¬ ∃ u, Models Γ u
  | some r => (∃ u, Models Γ u) ∧
    (∀ a, a ∈ r.pos ↔ a ∈ vars ∧ k ≠ .neg ∧ Backbone idx Γ a true) ∧
    (∀ a, a ∈ r.neg ↔ a ∈ vars ∧ k ≠ .pos ∧ Backbone idx Γ a false) ∧
    ∀ a, a ∈ r.opt ↔ a ∈ vars ∧ k = .both ∧ ¬ Backbone idx Γ a true ∧ ¬ Backbone idx Γ a false

theorem build_spec {α : Type} {k : BBSort} {idx : α → Option Nat} {vars : List α} {Γ : List (List Nat)} {u0 : Nat → Bool} (h0 : Models Γ u0) {map : Nat → Option Bool}
    (h1 : ∀ v x, map v = some x → ∀ u, Models Γ u → u v = x) (h2 : ∀ a ∈ vars, ∀ i, idx a = some i → ∀ x, k.wants x = true → (∀ u, Models Γ u → u i = x) → map i = some x) :
    ResOk k idx vars Γ (some (buildBB k idx map vars)) := by
  have hdec : ∀ a ∈ vars, ∀ x, k.wants x = true → ((match idx a with | none => false | some i => map i == some x) = true ↔ Backbone idx Γ a x) := by
    intro a ha x hw
    cases hi : idx a with
    | none => simp [backbone_unknown hi ⟨u0, h0⟩ x]
    | some i =>
      rw [backbone_known hi]
      simp only [beq_iff_eq]
      exact ⟨h1 i x, h2 a ha i hi x hw⟩
  refine ⟨⟨u0, h0⟩, ?_, ?_, ?_⟩
  · intro a
    unfold buildBB
    dsimp only
    cases k with
    | neg => simp [BBSort.wants]
    | pos => rw [if_pos (show BBSort.pos.wants true = true from rfl), List.mem_filter]; constructor
             · rintro ⟨h3, h4⟩; exact ⟨h3, by simp, (hdec a h3 true rfl).1 h4⟩
             · rintro ⟨h3, _, h4⟩; exact ⟨h3, (hdec a h3 true rfl).2 h4⟩
    | both => rw [if_pos (show BBSort.both.wants true = true from rfl), List.mem_filter]; constructor
              · rintro ⟨h3, h4⟩; exact ⟨h3, by simp, (hdec a h3 true rfl).1 h4⟩
              · rintro ⟨h3, _, h4⟩; exact ⟨h3, (hdec a h3 true rfl).2 h4⟩
  · intro a
    unfold buildBB
    dsimp only
    cases k with
    | pos => simp [BBSort.wants]
    | neg => rw [if_pos (show BBSort.neg.wants false = true from rfl), List.mem_filter]; constructor
             · rintro ⟨h3, h4⟩; exact ⟨h3, by simp, (hdec a h3 false rfl).1 h4⟩
             · rintro ⟨h3, _, h4⟩; exact ⟨h3, (hdec a h3 false rfl).2 h4⟩
    | both => rw [if_pos (show BBSort.both.wants false = true from rfl), List.mem_filter]; constructor
              · rintro ⟨h3, h4⟩; exact ⟨h3, by simp, (hdec a h3 false rfl).1 h4⟩
              · rintro ⟨h3, _, h4⟩; exact ⟨h3, (hdec a h3 false rfl).2 h4⟩
  · intro a
    unfold buildBB
    dsimp only
    cases k with
    | pos => simp
    | neg => simp
    | both =>
      rw [if_pos rfl, List.mem_filter]
      constructor
      · rintro ⟨h3, h4⟩
        refine ⟨h3, rfl, ?_, ?_⟩
        · intro h5
          have := (hdec a h3 true rfl).2 h5
          cases hi : idx a with
          | none => rw [hi] at this; cases this
          | some i => rw [hi] at this h4; simp at this h4; rw [this] at h4; cases h4
        · intro h5
          have := (hdec a h3 false rfl).2 h5
          cases hi : idx a with
          | none => rw [hi] at this; cases this
          | some i => rw [hi] at this h4; simp at this h4; rw [this] at h4; cases h4
      · rintro ⟨h3, _, h5, h6⟩
        refine ⟨h3, ?_⟩
        cases hi : idx a with
        | none => rfl
        | some i =>
          rw [← hdec a h3 true rfl] at h5
          rw [← hdec a h3 false rfl] at h6
          rw [hi] at h5 h6
          simp at h5 h6 ⊢
          cases hm : map i with
          | none => rfl
          | some y => cases y; exact absurd hm h6; exact absurd hm h5

theorem bbCore_spec {α : Type} {fuel : Nat} {R : Nat → Run} {mb : Bool} (hR : ∀ n, (R n).Calm mb) {a : A} {k : BBSort} {idx : α → Option Nat} {vars : List α} {w w' : W}
    (hi : Inv mb w a) (hidx : ∀ x ∈ vars, ∀ i, idx x = some i → i < w.s.nVars) {r : Option (Option (Res α))} (he : bbCore fuel R k idx vars w = some (r, w')) :
    Inv mb w' a ∧ w'.handles = w.handles ∧ ∀ x, r = some x → ResOk k idx vars a.cur x := by
  unfold bbCore at he
  cases hst : w.step fuel (.solve (R 0) []) with
  | none => rw [hst] at he; cases he
  | some x =>
    obtain ⟨w1, x⟩ := x
    obtain ⟨ha, v, rfl, hsv⟩ := wstep_solve hst
    obtain ⟨hi1, hv⟩ := step_spec (o := .solve (R 0) []) hi (hR 0) hst
    have hi1 : Inv mb w1 a := hi1
    obtain ⟨hn1, hh1⟩ := step_nVars hi (hR 0) hst
    rw [hst] at he
    cases v with
    | none => cases he; exact ⟨hi1, hh1, fun _ e => by cases e⟩
    | some v =>
      cases v with
      | false =>
        cases he
        refine ⟨hi1, hh1, fun x e => ?_⟩
        cases e
        rintro ⟨u, hu⟩
        obtain ⟨g1, g2⟩ := hv false rfl
        obtain ⟨x, hx, _⟩ := g2 u hu
        have := g1 x hx
        cases this
      | true =>
        dsimp only at he
        obtain ⟨f, hf⟩ := solve_after (hi.cf (hR 0)) (hR 0).1 ha hi.rs hsv
        have hN : f.nVars = w1.s.nVars := hf.nVars.symm
        have hvs : ∀ v ∈ vars.filterMap idx, v < w1.s.nVars := by
          intro v hv
          obtain ⟨x, hx, hxv⟩ := List.mem_filterMap.1 hv
          rw [hn1]
          exact hidx x hx v hxv
        have hb0 : BI (Models a.cur) w1.s.nVars k w1.s.mval [] {} :=
          ⟨fun _ h => (by cases h), fun _ _ h => (by cases h), fun _ h => (by cases h), fun _ h => (by cases h)⟩
        have hb := init_spec hf hN (vars.filterMap idx) [] {} hb0 hvs
        rw [List.nil_append] at hb
        cases hl : bbLoop fuel R ((vars.filterMap idx).foldl (initVar k w1.s) {}).cands.length 1 ((vars.filterMap idx).foldl (initVar k w1.s) {}) w1 with
        | none => rw [hl] at he; cases he
        | some y =>
          obtain ⟨r', w2⟩ := y
          obtain ⟨j1, j2, j3⟩ := bbLoop_spec hR hf.model_sat _ 1 _ w1 r' w2 hi1 rfl hb (Nat.le_refl _) hl
          rw [hl] at he
          cases r' with
          | none => cases he; exact ⟨j1, j2.trans hh1, fun _ e => by cases e⟩
          | some b =>
            cases he
            refine ⟨j1, j2.trans hh1, fun x e => ?_⟩
            cases e
            obtain ⟨q1, q2⟩ := j3 b rfl
            refine build_spec hf.model_sat q1.mapI ?_
            intro x hx i hxi y hy hbb
            rcases q1.cov i (List.mem_filterMap.2 ⟨x, hx, hxi⟩) y hy hbb with h1 | h1
            · exact h1
            · rw [q2] at h1; cases h1

theorem backbone_spec {α : Type} {fuel : Nat} {R : Nat → Run} {mb : Bool} (hR : ∀ n, (R n).Calm mb) {a : A} {k : BBSort} {idx : α → Option Nat} {vars : List α} {w w' : W}
    (hi : Inv mb w a) (hidx : ∀ x ∈ vars, ∀ i, idx x = some i → i < w.s.nVars) {r : Option (Option (Res α))} (he : backbone fuel R k idx vars w = some (r, w')) :
    Inv mb w' ((a.step .save).step (.load a.snaps.length)) ∧ ∀ x, r = some x → ResOk k idx vars a.cur x := by
  unfold backbone at he
  cases hst : w.step fuel .save with
  | none => rw [hst] at he; cases he
  | some x =>
    obtain ⟨w1, x⟩ := x
    rw [hst] at he
    dsimp only at he
    obtain ⟨hi1, _⟩ := step_spec (o := .save) hi trivial hst
    have hs1 : w1.s.nVars = w.s.nVars := by
      unfold W.step at hst
      cases hst; rfl
    cases hc : bbCore fuel R k idx vars w1 with
    | none => rw [hc] at he; cases he
    | some y =>
      obtain ⟨r', w2⟩ := y
      rw [hc] at he
      dsimp only at he
      obtain ⟨h1, h2, h3⟩ := bbCore_spec hR hi1 (by rw [hs1]; exact hidx) hc
      cases hl : w2.step fuel (.load w.handles.length) with
      | none => rw [hl] at he; cases he
      | some z =>
        obtain ⟨w3, z⟩ := z
        obtain ⟨hi3, _⟩ := step_spec (o := .load w.handles.length) h1 trivial hl
        rw [hl] at he
        cases z with
        | unit => cases he
        | verdict _ => cases he
        | bool b =>
          cases b with
          | false => cases he
          | true =>
            cases he
            rw [hi.len]
            exact ⟨hi3, h3⟩

/-- C22: the backbone of a solver after any history of operations, for any list of variables (also such that the solver does not know) and any sort of backbone: the
call reports unsatisfiability just if the clauses have no model, and otherwise exactly the variables with the same value in all models, and for the full backbone exactly
the other ones as optional.  This includes that neither the literals left out as rotatable nor those taken over from level 0 change the result. -/
theorem C22_partial {α : Type} {fuel : Nat} {ops : List Op} {w w' : W} {mb : Bool} (hc : ∀ o ∈ ops, o.Calm mb) (h : W.run fuel {} ops = some w) {R : Nat → Run} (hR : ∀ n, (R n).Calm mb)
    {k : BBSort} {idx : α → Option Nat} {vars : List α} (hidx : ∀ a ∈ vars, ∀ i, idx a = some i → i < w.s.nVars) {r : Option (Res α)}
    (hb : backbone fuel R k idx vars w = some (some r, w')) : ResOk k idx vars (A.run ops).cur r :=
  (backbone_spec hR (run_spec inv_init hc h) hidx hb).2 r rfl

/-- C22: computing a backbone, cancelled or not, leaves the clauses of the solver as they were: afterwards the solver answers a call according to the clauses added before. -/
theorem C22_restores_partial {α : Type} {fuel : Nat} {ops : List Op} {w w' : W} {mb : Bool} (hc : ∀ o ∈ ops, o.Calm mb) (h : W.run fuel {} ops = some w) {R : Nat → Run}
    (hR : ∀ n, (R n).Calm mb) {k : BBSort} {idx : α → Option Nat} {vars : List α} (hidx : ∀ a ∈ vars, ∀ i, idx a = some i → i < w.s.nVars)
    {r : Option (Option (Res α))} (hb : backbone fuel R k idx vars w = some (r, w')) {q : Run} (hq : q.Calm mb) {asm : List Nat} {w2 : W} {b : Bool}
    (hs : w'.step fuel (.solve q asm) = some (w2, .verdict (some b))) : b = true ↔ ∃ u, Models (A.run ops).cur u ∧ ∀ p ∈ asm, lv u p = true := by
  have hi : Inv mb w' (((A.run ops).step .save).step (.load (A.run ops).snaps.length)) := (backbone_spec hR (run_spec inv_init hc h) hidx hb).1
  have hcur : (((A.run ops).step .save).step (.load (A.run ops).snaps.length)).cur = (A.run ops).cur := by
    unfold A.step
    dsimp only
    rw [if_pos (by simp)]
    simp
  have hv := (step_spec (o := .solve q asm) hi hq hs).2 b rfl
  rw [hcur] at hv
  cases b with
  | true =>
    obtain ⟨hl, hm⟩ := hv
    refine ⟨fun _ => ⟨fun v => w2.s.model[v]?.getD false, hm _ fun v hv => ?_⟩, fun _ => rfl⟩
    rw [List.getElem?_eq_getElem (by rw [hl]; exact hv)]; rfl
  | false =>
    refine ⟨fun e => (by cases e), fun ⟨u, hu, ha⟩ => ?_⟩
    obtain ⟨x, hx, hxv⟩ := hv.2 u hu
    have := ha _ (hv.1 x hx)
    rw [lv_neg, hxv] at this; cases this

/-! ## a concrete run -/

/-- the backbone of the clauses of `ops1` and another one, with a variable unknown to the solver (`4`) -/
def bbOps : List Op := ops1 ++ [.add [7, 1, 3]]
def bbIdx (a : Nat) : Option Nat := if a < 4 then some a else none
def bbOf (k : BBSort) (vars : List Nat) (ops : List Op := bbOps) : Option (Option (List Nat × List Nat × List Nat)) :=
  match W.run 80 {} ops with
  | none => none
  | some w => match backbone 80 (fun _ => calmRun) k bbIdx vars w with
    | some (some (some r), _) => some (some (r.pos, r.neg, r.opt))
    | some (some none, _) => some none
    | _ => none

example : (∀ o ∈ bbOps, o.Calm false) := by simp [bbOps, ops1, Op.Calm]
example : ∀ n, ((fun _ : Nat => calmRun) n).Calm true := fun n => ⟨by intro m; simp only [calmRun]; split <;> rfl, fun _ e => by cases e⟩
example : bbOf .both [0, 1, 2, 3, 4] = some (some ([2], [], [0, 1, 3, 4])) := by decide +kernel
example : bbOf .pos [3, 2] = some (some ([2], [], [])) := by decide +kernel
example : bbOf .neg [3, 2] = some (some ([], [], [])) := by decide +kernel
/-- with an at-most clause: `x₃` makes `x₁` or `x₂` true, so `x₀` is false -/
example : bbOf .both [0, 1, 2, 3] (amOps ++ [.add [6]]) = some (some ([3], [0], [1, 2])) := by decide +kernel

end Verif.Sat
