import Verif.Sat.Props
import Verif.Spec.Formula
/-!
# The formulas on the solver (C61)

Model of /repo/sat/formulas_on_solver.go on the core solver of C17–C21. `nm` is `idx2name`. The set of formulas is a list; a clause is a disjunction
(the simplifications of the factory are C02–C05).
-/
namespace Verif.Sat
open Verif
variable {α : Type}

/-! ## model -/

/-- formulas_on_solver.go:25, 42: the literal of the factory -/
def facLit (nm : Nat → α) (l : Nat) : Lit α := ⟨nm (l / 2), l % 2 == 0⟩

/-- formulas_on_solver.go:20-47 `FormulasOnSolver`: clauses, at-most clauses with `rhs = size + 1 - watchers`, literals of variables whose level is 0, the constant false -/
def formulasOnSolver (nm : Nat → α) (s : S) : List (Fm α) :=
  s.clauses.map (fun c => .or ((s.cls c).lits.map fun l => .lit (facLit nm l))) ++
  s.ams.filterMap (fun c => (s.am c).map fun k => (.cc .le ((k.lits.length + 1 - k.w.length : Nat) : Int) (k.lits.map fun l => (facLit nm l).var) : Fm α)) ++
  ((List.range s.nVars).filter fun v => s.level v == 0).map (fun v => .lit ⟨nm v, s.val v == some true⟩) ++
  (if s.ok then [] else [.fls])

/-! ## variables of level 0 are assigned, as long as no state is loaded -/

structure K (s : S) : Prop where
  fresh : ∀ v < s.nVars, s.val v = none → s.level v ≠ 0
  up : ∀ lim0, s.trailLim.getLast? = some lim0 → ∀ l ∈ s.trail.take (s.trail.length - lim0), s.level (l / 2) ≠ 0
  lims : s.trailLim.Pairwise (· ≥ ·)
  le : ∀ x ∈ s.trailLim, x ≤ s.trail.length

/-- the fields `K` depends on -/
def S.kPart (s : S) := (s.nVars, s.val, s.level, s.trail, s.trailLim)

theorem K.congr {s s' : S} (h : K s) (e : s'.kPart = s.kPart) : K s' := by
  unfold S.kPart at e
  simp only [Prod.mk.injEq] at e
  obtain ⟨e1, e2, e3, e4, e5⟩ := e
  obtain ⟨h1, h2, h3, h4⟩ := h
  constructor <;> simp only [e1, e2, e3, e4, e5] <;> assumption

theorem K.enqueue {s : S} (h : K s) (l : Nat) (r : Option Nat) : K (enqueue s l r) := by
  refine ⟨?_, ?_, h.lims, fun x hx => Nat.le_succ_of_le (h.le x hx)⟩
  · intro v hv h0
    have h0 : upd s.val (l / 2) (some (l % 2 == 0)) v = none := h0
    show upd s.level (l / 2) s.dl v ≠ 0
    by_cases e : v = l / 2
    · rw [e, upd_same] at h0; cases h0
    · rw [upd_ne _ _ e] at h0 ⊢
      exact h.fresh v hv h0
  · intro lim0 hl x hx
    have hl : s.trailLim.getLast? = some lim0 := hl
    have hm : lim0 ∈ s.trailLim := List.mem_of_getLast? hl
    have hd : s.dl ≠ 0 := by
      unfold S.dl
      intro e
      rw [List.length_eq_zero_iff.1 e] at hm; cases hm
    have hle := h.le lim0 hm
    show upd s.level (l / 2) s.dl (x / 2) ≠ 0
    have hx : x ∈ (l :: s.trail).take ((l :: s.trail).length - lim0) := hx
    by_cases e : x / 2 = l / 2
    · rw [e, upd_same]; exact hd
    · rw [upd_ne _ _ e]
      rw [List.length_cons, show s.trail.length + 1 - lim0 = (s.trail.length - lim0) + 1 by omega, List.take_succ_cons, List.mem_cons] at hx
      rcases hx with rfl | hx
      · exact absurd rfl e
      · exact h.up lim0 hl x hx

theorem K.push {s : S} (h : K s) : K { s with trailLim := s.trail.length :: s.trailLim } := by
  refine ⟨h.fresh, ?_, ?_, ?_⟩
  · intro lim0 hl x hx
    have hl : (s.trail.length :: s.trailLim).getLast? = some lim0 := hl
    cases e : s.trailLim with
    | nil =>
      rw [e] at hl
      simp only [List.getLast?_singleton, Option.some.injEq] at hl
      subst hl
      simp at hx
    | cons a t =>
      rw [e, List.getLast?_cons_cons, ← e] at hl
      exact h.up lim0 hl x hx
  · exact List.pairwise_cons.2 ⟨fun x hx => h.le x hx, h.lims⟩
  · intro x hx
    rcases List.mem_cons.1 hx with rfl | hx
    · exact Nat.le_refl _
    · exact h.le x hx

theorem K.cancelUntil {s : S} (h : K s) (lev : Nat) : K (cancelUntil s lev) := by
  unfold Sat.cancelUntil
  split
  · split
    · exact h
    · rename_i lim older heq
      have hsuf : (lim :: older) <:+ s.trailLim := heq ▸ List.drop_suffix _ _
      have hmem : lim ∈ s.trailLim := hsuf.subset List.mem_cons_self
      have hll := h.le lim hmem
      have hpw : (lim :: older).Pairwise (· ≥ ·) := h.lims.sublist hsuf.sublist
      obtain ⟨z, hz⟩ : ∃ z, s.trailLim.getLast? = some z := by
        cases e : s.trailLim.getLast? with
        | none => rw [List.getLast?_eq_none_iff] at e; rw [e] at hmem; cases hmem
        | some z => exact ⟨z, rfl⟩
      have hlast : (lim :: older).getLast? = some z := by
        obtain ⟨p, hp⟩ := hsuf
        rw [← hp, List.getLast?_append_of_ne_nil _ (by simp)] at hz
        exact hz
      have hzl : z ≤ lim := by
        have := List.mem_of_getLast? hlast
        rcases List.mem_cons.1 this with rfl | hm
        · exact Nat.le_refl _
        · exact (List.pairwise_cons.1 hpw).1 z hm
      have hup : ∀ x ∈ s.trail.take (s.trail.length - lim), s.level (x / 2) ≠ 0 := fun x hx =>
        h.up z hz x ((List.take_sublist_take_left (by omega)).subset hx)
      refine ⟨?_, ?_, (List.pairwise_cons.1 hpw).2, ?_⟩
      · intro v hv h0
        have h0 : (if v ∈ (s.trail.take (s.trail.length - lim)).map (· / 2) then none else s.val v) = none := h0
        show s.level v ≠ 0
        split at h0
        · rename_i hm
          obtain ⟨x, hx, rfl⟩ := List.mem_map.1 hm
          exact hup x hx
        · exact h.fresh v hv h0
      · intro lim0 hl x hx
        have hl : older.getLast? = some lim0 := hl
        show s.level (x / 2) ≠ 0
        have hx : x ∈ (s.trail.drop (s.trail.length - lim)).take ((s.trail.drop (s.trail.length - lim)).length - lim0) := hx
        have hz0 : lim0 = z := by
          cases older with
          | nil => cases hl
          | cons a t => rw [List.getLast?_cons_cons, hl] at hlast; exact Option.some.inj hlast
        subst hz0
        refine h.up lim0 hz x ?_
        rw [List.length_drop] at hx
        rw [List.take_drop] at hx
        have := List.mem_of_mem_drop hx
        rwa [show s.trail.length - lim + (s.trail.length - (s.trail.length - lim) - lim0) = s.trail.length - lim0 by omega] at this
      · intro x hx
        have := (List.pairwise_cons.1 hpw).1 x hx
        show x ≤ (s.trail.drop (s.trail.length - lim)).length
        rw [List.length_drop]
        omega
  · exact h

theorem K.visitBin : ∀ (ws : List (Nat × Nat)) {s : S}, K s → K (visitBin s ws).1
  | [], _, h => h
  | (c, imp) :: ws, s, h => by
    unfold Sat.visitBin
    split
    · exact h
    · exact K.visitBin ws h
    · exact K.visitBin ws (h.enqueue _ _)

theorem K.amUnits (c p : Nat) : ∀ (xs : List Nat) {s : S}, K s → K (amUnits c p s xs)
  | [], _, h => h
  | x :: xs, s, h => by
    unfold Sat.amUnits
    refine K.amUnits c p xs ?_
    split
    · exact h.enqueue _ _
    · exact h

theorem K.visit (p : Nat) : ∀ (todo : List (Nat × Nat)) (kept : List (Nat × Nat)) {s : S}, K s → K (visit p s kept todo).1
  | [], kept, s, h => h.congr rfl
  | (c, bl) :: todo, kept, s, h => by
    rw [Sat.visit]
    split
    · split
      · exact K.visit p todo _ h
      · exact K.visit p todo _ (h.amUnits c p _)
      · exact h.congr rfl
      · exact K.visit p todo _ (h.congr rfl)
    · split
      · exact K.visit p todo _ h
      · extract_lets k f k' s1 first
        have h1 : K s1 := h.congr rfl
        split
        · exact K.visit p todo _ (h1.congr rfl)
        · split
          · exact K.visit p todo _ (h1.congr rfl)
          · split
            · exact h1.congr rfl
            · refine K.visit p todo _ (K.enqueue ?_ _ _)
              exact h1.congr rfl

theorem K.propagate : ∀ (k : Nat) {s s' : S} {r : Option Nat}, K s → propagate k s = some (s', r) → K s'
  | 0, _, _, _, _, e => by cases e
  | k + 1, s, s', r, h, e => by
    rw [Sat.propagate] at e
    split at e
    · cases e; exact h
    · rename_i p hp
      dsimp only at e
      have h1 : K { s with qhead := s.qhead + 1 } := h.congr rfl
      have h2 := K.visitBin (s.watchesBin p) h1
      split at e
      · rename_i s2 c heq
        cases e
        rw [heq] at h2; exact h2
      · rename_i s2 heq
        rw [heq] at h2
        have h3 := K.visit p (s2.watches p) [] h2
        split at e
        · rename_i s3 c heq3
          cases e
          rw [heq3] at h3; exact h3
        · rename_i s3 heq3
          rw [heq3] at h3
          exact K.propagate k h3 e

theorem kPart_attach (s : S) (k : Cls) : (attach s k).kPart = s.kPart := by
  unfold attach
  dsimp only
  split <;> rfl

theorem kPart_detach (s : S) (i : Nat) : (detach s i).kPart = s.kPart := by
  unfold detach
  dsimp only
  split <;> rfl

theorem K.reduceLoop (del : Nat → Bool) : ∀ (is kept : List Nat) {s : S}, K s → K (reduceLoop del s is kept)
  | [], _, s, h => h.congr rfl
  | i :: is, kept, s, h => by
    unfold Sat.reduceLoop
    split
    · exact K.reduceLoop del is kept (h.congr ((kPart_detach _ _).trans rfl))
    · exact K.reduceLoop del is _ h

theorem K.learn {s : S} (h : K s) (l0 : Nat) (out : List Nat) : K (learn s l0 out) := by
  unfold Sat.learn
  split
  · exact (h.enqueue l0 none).congr rfl
  · refine K.enqueue ?_ _ _
    exact h.congr ((kPart_attach _ _).trans rfl)

theorem K.asmLoop : ∀ (ps : List Nat) {s : S}, K s → K (asmLoop s ps).1
  | [], _, h => h
  | p :: ps, s, h => by
    unfold Sat.asmLoop
    split
    · exact K.asmLoop ps h.push
    · exact h
    · exact h

theorem K.analyzeFinal {s : S} (h : K s) (p : Nat) : K (analyzeFinal s p) := by
  unfold Sat.analyzeFinal
  split <;> exact h.congr rfl

theorem K.pickBranch {s : S} (h : K s) (ch : Choice) : K (pickBranch ch s).1 := by
  unfold Sat.pickBranch
  split <;> exact h.congr rfl

def Out.s : Out → S
  | .cont s => s
  | .sat s => s
  | .unsat s => s

theorem K.iter {cfg : Min} {fuel : Nat} {ch : Choice} {asm : List Nat} {s : S} (h : K s) {o : Out} (e : iter cfg fuel ch asm s = some o) : K o.s := by
  unfold Sat.iter at e
  split at e
  · cases e
  · rename_i s1 c hp
    have h1 := K.propagate fuel h hp
    split at e
    · cases e; exact h1
    · split at e
      · cases e; exact h1
      · split at e
        · cases e
        · cases e
          refine K.learn (K.cancelUntil ?_ _) _ _
          exact h1.congr rfl
  · rename_i s1 hp
    have h1 := K.propagate fuel h hp
    split at e
    · cases e; exact h1.cancelUntil 0
    · dsimp only at e
      have h2 : K (if ch.reduce then reduceDB ch.del s1 else s1) := by
        split
        · exact K.reduceLoop _ _ _ h1
        · exact h1
      generalize (if ch.reduce then reduceDB ch.del s1 else s1) = s2 at e h2
      have h3 := K.asmLoop (asm.drop s2.dl) h2
      split at e
      · rename_i s3 p heq
        rw [heq] at h3
        cases e; exact h3.analyzeFinal _
      · rename_i s3 p heq
        rw [heq] at h3
        cases e
        exact h3.push.enqueue _ _
      · rename_i s3 heq
        rw [heq] at h3
        have h4 := h3.pickBranch ch
        split at e
        · rename_i s4 heq4
          rw [heq4] at h4
          cases e; exact h4
        · rename_i s4 p heq4
          rw [heq4] at h4
          cases e
          exact h4.push.enqueue _ _

theorem K.searchLoop {cfg : Min} {fuel : Nat} {O : Nat → Choice} {asm : List Nat} : ∀ (k n : Nat) {s : S} {b : Bool} {s' : S}, K s → searchLoop cfg fuel O asm k n s = some (b, s') → K s'
  | 0, _, _, _, _, _, e => by cases e
  | k + 1, n, s, b, s', h, e => by
    rw [Sat.searchLoop] at e
    split at e
    · cases e
    · rename_i s1 hi
      exact K.searchLoop k (n + 1) (h.iter hi) e
    · rename_i s1 hi
      cases e; exact h.iter hi
    · rename_i s1 hi
      cases e; exact h.iter hi

theorem K.solve {cfg : Min} {fuel : Nat} {O : Nat → Choice} {st fi : Bool} {asm : List Nat} {s s' : S} {r : Option Bool} (h : K s) (e : solve cfg fuel O st fi asm s = some (r, s')) : K s' := by
  unfold Sat.solve at e
  split at e
  · cases e; exact h
  · dsimp only at e
    split at e
    · cases e; exact h.congr rfl
    · split at e
      · cases e
      · rename_i b s1 hs
        cases e
        have h1 : K s1 := K.searchLoop fuel 0 (h.congr (s' := { s with conflict := [], model := [] }) rfl) hs
        refine K.cancelUntil ?_ 0
        split
        · exact h1.congr rfl
        · split
          · exact h1.congr rfl
          · exact h1

theorem K.newVar {s : S} (h : K s) : K (newVar s) := by
  refine ⟨?_, ?_, h.lims, h.le⟩
  · intro v hv h0
    have hv : v < s.nVars + 1 := hv
    have h0 : upd s.val s.nVars none v = none := h0
    show upd s.level s.nVars 1 v ≠ 0
    by_cases e : v = s.nVars
    · rw [e, upd_same]; exact Nat.one_ne_zero
    · rw [upd_ne _ _ e] at h0 ⊢
      exact h.fresh v (by omega) h0
  · intro lim0 hl x hx
    have := h.up lim0 hl x hx
    show upd s.level s.nVars 1 (x / 2) ≠ 0
    by_cases e : x / 2 = s.nVars
    · rw [e, upd_same]; exact Nat.one_ne_zero
    · rw [upd_ne _ _ e]; exact this

theorem K.addClause {fuel : Nat} {s s' : S} {ps : List Nat} {b : Bool} (h : K s) (e : addClause fuel s ps = some (s', b)) : K s' := by
  unfold Sat.addClause at e
  split at e
  · cases e; exact h
  · split at e
    · cases e; exact h
    · cases e; exact h.congr rfl
    · split at e
      · cases e
      · rename_i s1 r hp
        cases e
        exact (K.propagate fuel (h.enqueue _ _) hp).congr rfl
    · cases e
      exact h.congr ((kPart_attach _ _).trans rfl)

theorem K.amZero : ∀ (qs : List Nat) {s : S}, K s → K (amZero s qs)
  | [], _, h => h
  | q :: qs, s, h => by
    unfold Sat.amZero
    exact K.amZero qs ((h.enqueue (neg q) none).congr rfl)

theorem K.addAtMost {fuel : Nat} {s s' : S} {ps : List Nat} {k : Int} (h : K s) (e : addAtMost fuel s ps k = some s') : K s' := by
  unfold Sat.addAtMost at e
  split at e
  · cases e; exact h
  · dsimp only at e
    split at e
    · cases e; exact h
    · split at e
      · cases e; exact h.congr rfl
      · split at e
        · split at e
          · cases e
          · rename_i s1 r hp
            cases e
            exact (K.propagate fuel (K.amZero _ h) hp).congr rfl
        · cases e; exact h.congr rfl

/-- the operation is not the loading of a state -/
def Op.NoLoad : Op → Prop
  | .load _ => False
  | _ => True

theorem K.step {fuel : Nat} {w w' : W} {a : Ans} {o : Op} (h : K w.s) (ho : o.NoLoad) (e : w.step fuel o = some (w', a)) : K w'.s := by
  cases o with
  | newVar => cases e; exact h.newVar
  | add c =>
    simp only [W.step] at e
    split at e
    · obtain ⟨⟨s1, b⟩, h1, h2⟩ := Option.map_eq_some_iff.1 e
      cases h2; exact h.addClause h1
    · cases e
  | atMost vs k =>
    simp only [W.step] at e
    split at e
    · obtain ⟨s1, h1, h2⟩ := Option.map_eq_some_iff.1 e
      cases h2; exact h.addAtMost h1
    · cases e
  | solve r asm =>
    simp only [W.step] at e
    split at e
    · obtain ⟨⟨b, s1⟩, h1, h2⟩ := Option.map_eq_some_iff.1 e
      cases h2; exact h.solve h1
    · cases e
  | save => cases e; exact h.congr rfl
  | load k => exact absurd ho id

theorem K.run {fuel : Nat} : ∀ {ops : List Op} {w w' : W}, K w.s → (∀ o ∈ ops, o.NoLoad) → w.run fuel ops = some w' → K w'.s
  | [], w, w', h, _, e => by cases e; exact h
  | o :: os, w, w', h, ho, e => by
    unfold W.run at e
    cases hs : w.step fuel o with
    | none => rw [hs] at e; cases e
    | some x =>
      obtain ⟨w1, r⟩ := x
      rw [hs] at e
      exact K.run (ops := os) (h.step (ho o List.mem_cons_self) hs) (fun o' h' => ho o' (List.mem_cons_of_mem _ h')) e

theorem K.init : K S.init := by
  refine ⟨fun v hv => absurd hv (Nat.not_lt_zero v), ?_, List.Pairwise.nil, ?_⟩
  · intro _ h; cases h
  · intro _ h; cases h

/-! ## what the formulas mean -/

theorem facLit_eval (nm : Nat → α) (v : α → Bool) (l : Nat) : (facLit nm l).eval v = lv (fun i => v (nm i)) l := by
  unfold facLit Lit.eval lv
  rcases Nat.mod_two_eq_zero_or_one l with h | h <;> simp [h]

theorem cntTrue_lits (nm : Nat → α) (v : α → Bool) : ∀ ls : List Nat, (∀ l ∈ ls, l % 2 = 0) →
    cntTrue v (ls.map fun l => (facLit nm l).var) = ((ls.filter (lv fun i => v (nm i))).length : Int)
  | [], _ => rfl
  | l :: ls, h => by
    have ih := cntTrue_lits nm v ls fun x hx => h x (List.mem_cons_of_mem _ hx)
    have hl : lv (fun i => v (nm i)) l = v (nm (l / 2)) := by unfold lv; rw [if_pos (h l List.mem_cons_self)]
    rw [List.map_cons, cntTrue, ih, List.filter_cons, hl]
    show (if v (nm (l / 2)) then (1 : Int) else 0) + _ = _
    cases v (nm (l / 2)) <;> simp <;> omega

/-- the meaning of the set, spelled out -/
theorem formulasOnSolver_iff (nm : Nat → α) (s : S) (v : α → Bool) (hpos : ∀ c ∈ s.ams, ∀ k, s.am c = some k → ∀ x ∈ k.lits, x % 2 = 0) :
    (∀ f ∈ formulasOnSolver nm s, f.eval v = true) ↔
      (∀ c ∈ s.clauses, Sat (fun i => v (nm i)) (s.cls c).lits) ∧
      (∀ c ∈ s.ams, ∀ k, s.am c = some k → (k.lits.filter (lv fun i => v (nm i))).length ≤ k.card) ∧
      (∀ i < s.nVars, s.level i = 0 → v (nm i) = (s.val i == some true)) ∧ s.ok = true := by
  unfold formulasOnSolver
  simp only [List.mem_append, or_imp, forall_and, and_assoc]
  refine and_congr ?_ (and_congr ?_ (and_congr ?_ ?_))
  · rw [List.forall_mem_map]
    refine forall₂_congr fun c _ => ?_
    simp only [Fm.eval_or, List.any_eq_true, List.mem_map, Sat]
    refine ⟨?_, ?_⟩
    · rintro ⟨_, ⟨l, hl, rfl⟩, he⟩
      exact ⟨l, hl, by rwa [Fm.eval_lit, facLit_eval] at he⟩
    · rintro ⟨l, hl, he⟩
      exact ⟨_, ⟨l, hl, rfl⟩, by rwa [Fm.eval_lit, facLit_eval]⟩
  · have key : ∀ c ∈ s.ams, ∀ k, s.am c = some k →
        ((.cc .le ((k.lits.length + 1 - k.w.length : Nat) : Int) (k.lits.map fun l => (facLit nm l).var) : Fm α).eval v = true ↔ (k.lits.filter (lv fun i => v (nm i))).length ≤ k.card) := by
      intro c hc k hk
      rw [Fm.eval_cc, cntTrue_lits nm v k.lits (hpos c hc k hk)]
      have : k.lits.length + 1 - k.w.length = k.card := by
        unfold Am.lits Am.card; rw [List.length_append]; omega
      rw [this]
      simp [Cmp.holds]
    constructor
    · intro h c hc k hk
      refine (key c hc k hk).1 (h _ ?_)
      rw [List.mem_filterMap]
      exact ⟨c, hc, by rw [hk]; rfl⟩
    · intro h f hf
      obtain ⟨c, hc, he⟩ := List.mem_filterMap.1 hf
      obtain ⟨k, hk, rfl⟩ := Option.map_eq_some_iff.1 he
      exact (key c hc k hk).2 (h c hc k hk)
  · simp only [List.forall_mem_map, List.mem_filter, List.mem_range, beq_iff_eq, and_imp, Fm.eval_lit]
    refine forall₃_congr fun i _ _ => ?_
    unfold Lit.eval
    cases hv : (s.val i == some true) <;> simp
  · cases s.ok <;> simp

/-- C61: whatever the history, if each variable of level 0 has a value then an assignment satisfies all the returned formulas iff it satisfies everything added to
the solver. -/
theorem C61_assigned_partial {m : Bool} {fuel : Nat} {ops : List Op} {w : W} (hc : ∀ o ∈ ops, o.Calm m) (h : W.run fuel {} ops = some w)
    (hk : ∀ i < w.s.nVars, w.s.val i = none → w.s.level i ≠ 0) (nm : Nat → α) (v : α → Bool) :
    (∀ f ∈ formulasOnSolver nm w.s, f.eval v = true) ↔ Models (A.run ops).cur (fun i => v (nm i)) := by
  have hi := run_spec inv_init hc h
  obtain ⟨ex, hp⟩ := hi.rs.pi
  rw [formulasOnSolver_iff nm w.s v hp.a.pos]
  have h17 := C17 hc h
  constructor
  · rintro ⟨h1, h2, h3, hok⟩
    refine (h17.1 hok _).1 ⟨h1, fun l hl => ?_, h2⟩
    have hm := (hi.rs.run hok).2.2.1 l hl
    have hv := (hp.t.tval l).2 hm
    have := h3 (l / 2) (hp.t.trange l hm) (hi.rs.lev hm)
    unfold lv
    simp only [this]
    unfold S.value at hv
    rcases Nat.mod_two_eq_zero_or_one l with e | e <;> simp_all
  · intro hm
    have hok : w.s.ok = true := by
      cases e : w.s.ok with
      | true => rfl
      | false => exact absurd hm (h17.2 e _)
    obtain ⟨h1, h2, h3⟩ := (h17.1 hok _).2 hm
    refine ⟨h1, h3, fun i hi' h0 => ?_, hok⟩
    have hl := (C17_learnt hc h _ hm).2
    cases e : w.s.val i with
    | none => exact absurd h0 (hk i hi' e)
    | some b =>
      have hb : w.s.value (if b then 2 * i else 2 * i + 1) = some true := by
        unfold S.value
        cases b <;> simp [e, Nat.mul_add_div]
      have := hl _ hb
      unfold lv at this
      cases b <;> simpa [Nat.mul_add_div] using this

/-- C61: as long as no state has been loaded, an assignment satisfies all the formulas returned by `FormulasOnSolver` iff it satisfies everything added to the solver.
Missing: histories with `LoadState`, for which it is false (`C61_load_false`). -/
theorem C61_partial {m : Bool} {fuel : Nat} {ops : List Op} {w : W} (hc : ∀ o ∈ ops, o.Calm m) (hl : ∀ o ∈ ops, o.NoLoad) (h : W.run fuel {} ops = some w)
    (nm : Nat → α) (v : α → Bool) : (∀ f ∈ formulasOnSolver nm w.s, f.eval v = true) ↔ Models (A.run ops).cur (fun i => v (nm i)) :=
  C61_assigned_partial hc h (K.run (w := {}) K.init hl h).fresh nm v

/-- the history `Add(A | B)`, `SaveState`, `Add(A)`, `LoadState` -/
def loadOps : List Op := [.newVar, .newVar, .add [0, 2], .save, .add [0], .load 0]

/-- C61 is false after loading a state: `completeBacktrack` (core.go:612-624) takes back the values but not the levels, so the literal `¬A` is among the formulas although
only `A | B` has been added, and the model `A` is lost. -/
theorem C61_load_false : ∃ w, W.run 60 {} loadOps = some w ∧ Models (A.run loadOps).cur (fun i => i == 0) ∧
    ∃ f ∈ formulasOnSolver (fun i => i) w.s, f.eval (fun i => i == 0) = false := by
  have hs : (W.run 60 {} loadOps).isSome = true := by decide +kernel
  obtain ⟨w, hw⟩ := Option.isSome_iff_exists.1 hs
  refine ⟨w, hw, ?_, ?_⟩
  · intro c hc
    have : (A.run loadOps).cur = [[0, 2]] := by decide +kernel
    rw [this, List.mem_singleton] at hc
    subst hc
    exact ⟨0, by simp, by decide⟩
  · have h : (W.run 60 {} loadOps).any (fun w => (formulasOnSolver (fun i => i) w.s).any fun f => !f.eval fun i => i == 0) = true := by decide +kernel
    rw [hw] at h
    simpa using h

/-- `C61_partial`: a clause, an at-most clause, an assigned variable -/
def solverOps : List Op := [.newVar, .newVar, .newVar, .newVar, .add [0, 2], .atMost [0, 1, 2] 1, .add [6], .solve calmRun [0], .add [7, 4, 3]]
example : ∀ o ∈ solverOps, o.Calm true := by simp [solverOps, Op.Calm, calmRun, Run.Calm]; intro n; split <;> rfl
example : ∀ o ∈ solverOps, o.NoLoad := by simp [solverOps, Op.NoLoad]
example : (W.run 60 {} solverOps).any (fun w => (formulasOnSolver (fun i => i) w.s).length == 4 && !(formulasOnSolver (fun i => i) w.s).all fun f => f.eval fun i => i == 1) = true := by decide +kernel
example : (W.run 60 {} solverOps).any (fun w => (formulasOnSolver (fun i => i) w.s).all fun f => f.eval fun i => i == 0 || i == 3) = true := by decide +kernel

end Verif.Sat
