import Verif.Spec.Formula
import Verif.Spec.NormalForm
import Verif.Factory.Tree
import Mathlib.Data.List.Basic
import Mathlib.Data.List.Nodup
/-!
# Loading of clauses and soft formulas into the MaxSAT solver (C31)

`maxsat/algorithm.go` `addClause`, `addClauseVec`, `newLiteral`; `maxsat/solver.go` `AddHardFormula`, `AddSoftFormula`.
-/
namespace Verif.MaxSat
open Verif Verif.Tree
variable {α : Type} [DecidableEq α]

/-! ## model -/

/-- the part of `maxSatAlgorithm` that is concerned with loading; `idx` is the map `var2index` (and backwards `index2var`) -/
structure St (α : Type) where
  nbVars : Nat
  idx : List (α × Nat)
  hard : List (List Nat)
  soft : List (List Nat × Nat)
  ubCost : Nat
  currentWeight : Nat

/-- algorithm.go:66-81 `newAlgorithm` -/
def St.new : St α := ⟨0, [], [], [], 0, 1⟩

mutual
/-- formula/number_of_atoms.go:5-20 `NumberOfAtoms` -/
def numAtoms : Fm α → Nat
  | .not f => numAtoms f
  | .and fs => numAtomsL fs
  | .or fs => numAtomsL fs
  | .impl f g => numAtoms f + numAtoms g
  | .equiv f g => numAtoms f + numAtoms g
  | _ => 1
def numAtomsL : List (Fm α) → Nat
  | [] => 0
  | f :: fs => numAtoms f + numAtomsL fs
end

/-- the literals of a clause, as set (`f.Literals(fac, formula)`); other operands do not occur in clauses -/
def clauseLits : Fm α → List (Lit α)
  | .lit l => [l]
  | .or fs => (fs.filterMap fun f => match f with | .lit l => some l | _ => none).eraseDups
  | _ => []

/-- algorithm.go:268-281: one round of the loop -/
def putLit (st : St α × List Nat) (l : Lit α) : St α × List Nat :=
  let r : St α × Nat := match st.1.idx.lookup l.var with
    | some i => (st.1, i)
    | none => ({ st.1 with nbVars := st.1.nbVars + 1, idx := st.1.idx ++ [(l.var, st.1.nbVars)] }, st.1.nbVars)
  (r.1, st.2 ++ [if l.pos then r.2 * 2 else Nat.xor (r.2 * 2) 1])

/-- algorithm.go:265-282: the clause vector.  It is made with the length `NumberOfAtoms` and filled from the front; the rest keeps the value 0.
`ord` gives the order of the literal set. -/
def clauseVec (ord : List (Lit α) → List (Lit α)) (s : St α) (f : Fm α) : St α × List Nat :=
  let r := (ord (clauseLits f)).foldl putLit (s, [])
  (r.1, r.2 ++ List.replicate (numAtoms f - r.2.length) 0)

/-- algorithm.go:286-294 `addClauseVec` for hard clauses -/
def addHard (ord : List (Lit α) → List (Lit α)) (s : St α) (f : Fm α) : St α :=
  let r := clauseVec ord s f
  { r.1 with hard := r.1.hard ++ [r.2] }

/-- algorithm.go:286-294 `addClauseVec`, 141-150 for soft clauses -/
def addSoft (ord : List (Lit α) → List (Lit α)) (s : St α) (f : Fm α) (w : Nat) : St α :=
  let r := clauseVec ord s f
  { r.1 with soft := r.1.soft ++ [(r.2, w)], ubCost := r.1.ubCost + w, currentWeight := if r.1.currentWeight < w then w else r.1.currentWeight }

/-- algorithm.go:114-118, 134-136: a variable of the algorithm itself -/
def newVar (s : St α) : St α := { s with nbVars := s.nbVars + 1 }

/-- operations -/
inductive Op (α : Type)
  | hard (f : Fm α)
  | soft (f : Fm α) (w : Nat)
  | newVar

def step (ord : List (Lit α) → List (Lit α)) (s : St α) : Op α → St α
  | .hard f => addHard ord s f
  | .soft f w => addSoft ord s f w
  | .newVar => newVar s

def run (ord : List (Lit α) → List (Lit α)) (ops : List (Op α)) : St α := ops.foldl (step ord) St.new

/-- solver.go:177-188 `AddSoftFormula`: hard formulas and soft formula generated for the `i`-th soft formula -/
def softEnc (cons : Bool) (sel : Nat → α) (i : Nat) (f : Fm α) : List (Fm α) :=
  [tOr cons [.lit ⟨sel i, false⟩, f], tOr cons [tNot f, .lit ⟨sel i, true⟩]]

/-- all hard formulas on the solver -/
def hardEnc (cons : Bool) (sel : Nat → α) (hard : List (Fm α)) (soft : List (Fm α × Nat)) : List (Fm α) :=
  hard ++ soft.zipIdx.flatMap fun fi => softEnc cons sel fi.2 fi.1.1

/-- all soft formulas on the solver -/
def softSel (sel : Nat → α) (soft : List (Fm α × Nat)) : List (Fm α × Nat) := soft.zipIdx.map fun fi => (.lit ⟨sel fi.2, true⟩, fi.1.2)

/-! ## specification -/

/-- truth of a solver literal: `2i` is the variable `i`, `2i+1` its negation -/
def litVal (u : Nat → Bool) (l : Nat) : Bool := if l % 2 = 0 then u (l / 2) else !u (l / 2)

def clauseVal (u : Nat → Bool) (c : List Nat) : Bool := c.any (litVal u)

/-- weight of the soft formulas that are not satisfied -/
def cost (v : α → Bool) : List (Fm α × Nat) → Nat
  | [] => 0
  | (f, w) :: fs => (if f.eval v then 0 else w) + cost v fs

/-- weight of the soft clauses that are not satisfied -/
def costC (u : Nat → Bool) : List (List Nat × Nat) → Nat
  | [] => 0
  | (c, w) :: cs => (if clauseVal u c then 0 else w) + costC u cs

/-- a clause as the factory builds it: a literal, or a disjunction of different literals -/
def Regular : Fm α → Prop
  | .lit _ => True
  | .or fs => fs.Nodup ∧ ∀ f ∈ fs, ∃ l, f = .lit l
  | _ => False

/-- the hard formulas of a history -/
def hards : List (Op α) → List (Fm α)
  | [] => []
  | .hard f :: ops => f :: hards ops
  | _ :: ops => hards ops

/-- the soft formulas of a history -/
def softs : List (Op α) → List (Fm α × Nat)
  | [] => []
  | .soft f w :: ops => (f, w) :: softs ops
  | _ :: ops => softs ops

def Op.Ok : Op α → Prop
  | .hard f => Regular f
  | .soft f _ => Regular f
  | .newVar => True

/-! ## lemmas -/

/-- assignments of the solver's variables and of the formula's variables fit together -/
def Agree (idx : List (α × Nat)) (u : Nat → Bool) (v : α → Bool) : Prop := ∀ x i, idx.lookup x = some i → v x = u i

/-- the index maps are inverse to each other and the indices are variables -/
structure WF (s : St α) : Prop where
  lt : ∀ x i, s.idx.lookup x = some i → i < s.nbVars
  inj : ∀ x y i, s.idx.lookup x = some i → s.idx.lookup y = some i → x = y

theorem lookup_concat (idx : List (α × Nat)) (x : α) (n : Nat) (h : idx.lookup x = none) (y : α) :
    (idx ++ [(x, n)]).lookup y = if y = x then some n else idx.lookup y := by
  rw [List.lookup_append]
  by_cases hy : y = x
  · subst hy; simp [h]
  · cases h2 : idx.lookup y with
    | none =>
      have : (y == x) = false := by simpa using hy
      simp [hy, List.lookup, this]
    | some i => simp [hy]

/-- the new state after a literal, the value appended -/
theorem putLit_spec {s : St α} (hw : WF s) (vec : List Nat) (l : Lit α) :
    let r := putLit (s, vec) l
    WF r.1 ∧ (∀ x i, s.idx.lookup x = some i → r.1.idx.lookup x = some i) ∧ r.1.hard = s.hard ∧ r.1.soft = s.soft ∧
    r.1.ubCost = s.ubCost ∧ r.1.currentWeight = s.currentWeight ∧ (∃ i, r.1.idx.lookup l.var = some i) ∧
    ∃ k, r.2 = vec ++ [k] ∧ ∀ u v, Agree r.1.idx u v → litVal u k = l.eval v := by
  have hlit : ∀ (i : Nat) (u : Nat → Bool) (v : α → Bool), v l.var = u i →
      litVal u (if l.pos then i * 2 else Nat.xor (i * 2) 1) = l.eval v := by
    intro i u v h
    have hx : Nat.xor (i * 2) 1 = i * 2 + 1 := by
      show i * 2 ^^^ 1 = i * 2 + 1
      apply Nat.eq_of_testBit_eq
      intro j
      rw [Nat.testBit_xor]
      cases j with
      | zero => simp [Nat.testBit_zero]
      | succ j =>
        simp only [Nat.testBit_succ]
        rw [show i * 2 / 2 = i from by omega, show (i * 2 + 1) / 2 = i from by omega]
        simp
    cases hp : l.pos with
    | true => simp [litVal, Lit.eval, hp, h]
    | false =>
      simp only [Bool.false_eq_true, if_false, hx, litVal, Lit.eval, hp, h]
      rw [if_neg (by omega), show (i * 2 + 1) / 2 = i from by omega]
  simp only [putLit]
  cases h : s.idx.lookup l.var with
  | some i =>
    exact ⟨hw, fun _ _ h => h, rfl, rfl, rfl, rfl, ⟨i, h⟩, _, rfl, fun u v ha => hlit i u v (ha _ _ h)⟩
  | none =>
    have hl := lookup_concat s.idx l.var s.nbVars h
    refine ⟨⟨?_, ?_⟩, ?_, rfl, rfl, rfl, rfl, ⟨s.nbVars, by simp [hl]⟩, _, rfl, fun u v ha => hlit _ u v (ha _ _ (by simp [hl]))⟩
    · intro x i hx
      dsimp only at hx ⊢
      rw [hl] at hx
      split at hx
      · cases hx; omega
      · have := hw.lt x i hx; omega
    · intro x y i hx hy
      dsimp only at hx hy
      rw [hl] at hx hy
      split at hx <;> split at hy
      · next h1 h2 => rw [h1, h2]
      · cases hx; exact absurd (hw.lt y _ hy) (by omega)
      · cases hy; exact absurd (hw.lt x _ hx) (by omega)
      · exact hw.inj x y i hx hy
    · intro x i hx
      dsimp only
      rw [hl, if_neg]
      · exact hx
      · rintro rfl; rw [h] at hx; cases hx

theorem foldl_putLit (ls : List (Lit α)) : ∀ (s : St α) (vec : List Nat), WF s →
    let r := ls.foldl putLit (s, vec)
    WF r.1 ∧ (∀ x i, s.idx.lookup x = some i → r.1.idx.lookup x = some i) ∧ r.1.hard = s.hard ∧ r.1.soft = s.soft ∧
    r.1.ubCost = s.ubCost ∧ r.1.currentWeight = s.currentWeight ∧ (∀ l ∈ ls, ∃ i, r.1.idx.lookup l.var = some i) ∧
    ∃ ks, r.2 = vec ++ ks ∧ ks.length = ls.length ∧ ∀ u v, Agree r.1.idx u v → ks.map (litVal u) = ls.map (Lit.eval v) := by
  induction ls with
  | nil => intro s vec hw; exact ⟨hw, fun _ _ h => h, rfl, rfl, rfl, rfl, by simp, [], by simp, rfl, by simp⟩
  | cons l ls ih =>
    intro s vec hw
    have h1 := putLit_spec hw vec l
    obtain ⟨a1, a2, a3, a4, a5, a6, a7, k, a8, a9⟩ := h1
    have h2 := ih (putLit (s, vec) l).1 (putLit (s, vec) l).2 a1
    obtain ⟨b1, b2, b3, b4, b5, b6, b7, ks, b8, b9, b10⟩ := h2
    refine ⟨b1, fun x i h => b2 x i (a2 x i h), b3.trans a3, b4.trans a4, b5.trans a5, b6.trans a6, ?_, k :: ks, ?_, by simp [b9], ?_⟩
    · intro l' hl'
      rcases List.mem_cons.1 hl' with rfl | h
      · obtain ⟨i, hi⟩ := a7; exact ⟨i, b2 _ _ hi⟩
      · exact b7 l' h
    · rw [List.foldl_cons, b8, a8]; simp
    · intro u v ha
      rw [List.map_cons, List.map_cons, b10 u v ha, a9 u v fun x i h => ha x i (b2 x i h)]

theorem numAtomsL_lits (fs : List (Fm α)) (h : ∀ f ∈ fs, ∃ l, f = .lit l) : numAtomsL fs = fs.length := by
  induction fs with
  | nil => rfl
  | cons f fs ih =>
    obtain ⟨l, rfl⟩ := h f List.mem_cons_self
    rw [numAtomsL, ih fun g hg => h g (List.mem_cons_of_mem _ hg)]
    simp [numAtoms, Nat.add_comm]

theorem eraseDups_nodup : ∀ (l : List (Lit α)), l.Nodup → l.eraseDups = l
  | [], _ => by simp
  | a :: l, h => by
    rw [List.nodup_cons] at h
    rw [List.eraseDups_cons]
    have : l.filter (fun b => !b == a) = l := by
      rw [List.filter_eq_self]
      intro b hb
      simp
      rintro rfl
      exact h.1 hb
    rw [this, eraseDups_nodup l h.2]

theorem regular_lits {f : Fm α} (h : Regular f) : (clauseLits f).length = numAtoms f ∧
    (∀ v, f.eval v = (clauseLits f).any (Lit.eval v)) ∧ ∀ x, x ∈ f.vars → ∃ l ∈ clauseLits f, l.var = x := by
  cases f with
  | lit l => simp [clauseLits, numAtoms]
  | or fs =>
    obtain ⟨h1, h2⟩ := h
    have h3 : ∃ ls : List (Lit α), fs = ls.map .lit := by
      clear h1
      induction fs with
      | nil => exact ⟨[], rfl⟩
      | cons f fs ih =>
        obtain ⟨ls, rfl⟩ := ih fun g hg => h2 g (List.mem_cons_of_mem _ hg)
        obtain ⟨l, rfl⟩ := h2 f List.mem_cons_self
        exact ⟨l :: ls, rfl⟩
    obtain ⟨ls, rfl⟩ := h3
    have h4 : ls.Nodup := List.Nodup.of_map _ h1
    have h5 : clauseLits (.or (ls.map .lit) : Fm α) = ls := by
      have : (ls.map Fm.lit).filterMap (fun f : Fm α => match f with | .lit l => some l | _ => none) = ls := by
        rw [List.filterMap_map]
        clear h4 h1 h2
        induction ls with
        | nil => rfl
        | cons l ls ih => simpa [List.filterMap_cons] using ih
      rw [clauseLits, this, eraseDups_nodup ls h4]
    rw [h5]
    refine ⟨?_, ?_, ?_⟩
    · rw [numAtoms, numAtomsL_lits _ h2]; simp
    · intro v; simp [List.any_map]; rfl
    · intro x hx; simpa [eq_comm] using hx
  | _ => exact absurd h (by simp [Regular])

theorem clauseVec_spec {ord : List (Lit α) → List (Lit α)} (ho : ∀ l, (ord l).Perm l) {s : St α} (hw : WF s) {f : Fm α} (hr : Regular f) :
    let r := clauseVec ord s f
    WF r.1 ∧ (∀ x i, s.idx.lookup x = some i → r.1.idx.lookup x = some i) ∧ r.1.hard = s.hard ∧ r.1.soft = s.soft ∧
    r.1.ubCost = s.ubCost ∧ r.1.currentWeight = s.currentWeight ∧ (∀ x ∈ f.vars, ∃ i, r.1.idx.lookup x = some i) ∧
    ∀ u v, Agree r.1.idx u v → clauseVal u r.2 = f.eval v := by
  obtain ⟨h1, h2, h3⟩ := regular_lits hr
  obtain ⟨b1, b2, b3, b4, b5, b6, b7, ks, b8, b9, b10⟩ := foldl_putLit (ord (clauseLits f)) s [] hw
  rw [List.nil_append] at b8
  refine ⟨b1, b2, b3, b4, b5, b6, fun x hx => ?_, fun u v ha => ?_⟩
  · obtain ⟨l, hl, rfl⟩ := h3 x hx
    exact b7 l ((ho _).mem_iff.2 hl)
  · have hlen : numAtoms f - ks.length = 0 := by
      rw [b9, (ho _).length_eq, h1]; omega
    simp only [clauseVec, b8, hlen, List.replicate_zero, List.append_nil, clauseVal]
    have : ks.any (litVal u) = (ks.map (litVal u)).any id := by simp [List.any_map]
    rw [this, b10 u v ha, h2 v, List.any_map]
    rw [Bool.eq_iff_iff, List.any_eq_true, List.any_eq_true]
    constructor
    · rintro ⟨l, hl, hv⟩; exact ⟨l, (ho _).mem_iff.1 hl, hv⟩
    · rintro ⟨l, hl, hv⟩; exact ⟨l, (ho _).mem_iff.2 hl, hv⟩

/-- what holds after a history -/
structure Loaded (s : St α) (hs : List (Fm α)) (ss : List (Fm α × Nat)) : Prop where
  wf : WF s
  vars : ∀ f, f ∈ hs ∨ f ∈ ss.map (·.1) → ∀ x ∈ f.vars, ∃ i, s.idx.lookup x = some i
  hard : ∀ u v, Agree s.idx u v → s.hard.map (clauseVal u) = hs.map (Fm.eval v)
  soft : ∀ u v, Agree s.idx u v → s.soft.map (fun c => (clauseVal u c.1, c.2)) = ss.map fun f => (f.1.eval v, f.2)
  ub : s.ubCost = (ss.map (·.2)).sum

theorem step_loaded {ord : List (Lit α) → List (Lit α)} (ho : ∀ l, (ord l).Perm l) {s : St α} {hs : List (Fm α)} {ss : List (Fm α × Nat)} (h : Loaded s hs ss)
    (op : Op α) (hop : op.Ok) : Loaded (step ord s op) (hs ++ hards [op]) (ss ++ softs [op]) := by
  cases op with
  | newVar =>
    simp only [hards, softs, List.append_nil, step, newVar]
    exact ⟨⟨fun x i hx => Nat.lt_succ_of_lt (h.wf.lt x i hx), h.wf.inj⟩, h.vars, h.hard, h.soft, h.ub⟩
  | hard f =>
    obtain ⟨a1, a2, a3, a4, a5, a6, a7, a8⟩ := clauseVec_spec ho h.wf (f := f) hop
    simp only [hards, softs, List.append_nil, step, addHard]
    refine ⟨⟨a1.lt, a1.inj⟩, ?_, ?_, ?_, ?_⟩
    · intro g hg x hx
      have : (g ∈ hs ∨ g ∈ ss.map (·.1)) ∨ g = f := by
        rcases hg with hg | hg
        · rcases List.mem_append.1 hg with hg | hg
          · exact Or.inl (Or.inl hg)
          · exact Or.inr (by simpa using hg)
        · exact Or.inl (Or.inr hg)
      rcases this with hg | rfl
      · obtain ⟨i, hi⟩ := h.vars g hg x hx
        exact ⟨i, a2 x i hi⟩
      · exact a7 x hx
    · intro u v ha
      have ha' : Agree s.idx u v := fun x i hx => ha x i (a2 x i hx)
      simp only [List.map_append, List.map_cons, List.map_nil, a3, h.hard u v ha', a8 u v ha]
    · intro u v ha
      have ha' : Agree s.idx u v := fun x i hx => ha x i (a2 x i hx)
      simp only [a4, h.soft u v ha']
    · simp only [a5, h.ub]
  | soft f w =>
    obtain ⟨a1, a2, a3, a4, a5, a6, a7, a8⟩ := clauseVec_spec ho h.wf (f := f) hop
    simp only [hards, softs, List.append_nil, step, addSoft]
    refine ⟨⟨a1.lt, a1.inj⟩, ?_, ?_, ?_, ?_⟩
    · intro g hg x hx
      have : (g ∈ hs ∨ g ∈ ss.map (·.1)) ∨ g = f := by
        rcases hg with hg | hg
        · exact Or.inl (Or.inl hg)
        · rw [List.map_append, List.mem_append] at hg
          rcases hg with hg | hg
          · exact Or.inl (Or.inr hg)
          · exact Or.inr (by simpa using hg)
      rcases this with hg | rfl
      · obtain ⟨i, hi⟩ := h.vars g hg x hx
        exact ⟨i, a2 x i hi⟩
      · exact a7 x hx
    · intro u v ha
      have ha' : Agree s.idx u v := fun x i hx => ha x i (a2 x i hx)
      simp only [a3, h.hard u v ha']
    · intro u v ha
      have ha' : Agree s.idx u v := fun x i hx => ha x i (a2 x i hx)
      simp only [List.map_append, List.map_cons, List.map_nil, a4, h.soft u v ha', a8 u v ha]
    · simp only [a5, h.ub]; simp

theorem run_loaded {ord : List (Lit α) → List (Lit α)} (ho : ∀ l, (ord l).Perm l) (ops : List (Op α)) (hok : ∀ op ∈ ops, op.Ok) :
    Loaded (run ord ops) (hards ops) (softs ops) := by
  have hh : ∀ (a b : List (Op α)), hards (a ++ b) = hards a ++ hards b := by
    intro a b; induction a with
    | nil => rfl
    | cons o a ih => cases o <;> simp [hards, ih]
  have hs : ∀ (a b : List (Op α)), softs (a ++ b) = softs a ++ softs b := by
    intro a b; induction a with
    | nil => rfl
    | cons o a ih => cases o <;> simp [softs, ih]
  have : ∀ (rest done : List (Op α)) (s : St α), (∀ op ∈ rest, op.Ok) → Loaded s (hards done) (softs done) →
      Loaded (rest.foldl (step ord) s) (hards (done ++ rest)) (softs (done ++ rest)) := by
    intro rest
    induction rest with
    | nil => intro done s _ h; simpa using h
    | cons op rest ih =>
      intro done s hok h
      have h1 := step_loaded ho h op (hok op List.mem_cons_self)
      rw [← hh, ← hs] at h1
      have := ih (done ++ [op]) _ (fun o ho => hok o (List.mem_cons_of_mem _ ho)) h1
      rw [List.append_assoc] at this
      exact this
  have h0 : Loaded (St.new : St α) (hards []) (softs []) :=
    ⟨⟨by simp [St.new], by simp [St.new]⟩, by simp [hards, softs], by simp [St.new, hards], by simp [St.new, softs], rfl⟩
  have := this ops [] St.new hok h0
  rw [List.nil_append] at this
  exact this

theorem costC_eq (u : Nat → Bool) (v : α → Bool) : ∀ (cs : List (List Nat × Nat)) (fs : List (Fm α × Nat)),
    cs.map (fun c => (clauseVal u c.1, c.2)) = fs.map (fun f => (f.1.eval v, f.2)) → costC u cs = cost v fs
  | [], [], _ => rfl
  | [], _ :: _, h => by simp at h
  | _ :: _, [], h => by simp at h
  | (c, w) :: cs, (f, w') :: fs, h => by
    simp only [List.map_cons, List.cons.injEq, Prod.mk.injEq] at h
    obtain ⟨⟨h1, h2⟩, h3⟩ := h
    subst h2
    simp only [costC, cost, h1, costC_eq u v cs fs h3]

/-! ## C31 -/

/-- **C31**: after every history of added hard and soft clauses (each a literal or a disjunction of different literals) and variables made by the algorithms:
every variable of the formulas has an index, different variables have different indices, and under assignments that agree on these the clauses on the solver have
the values of the formulas, the cost of the soft clauses is the weight of the falsified soft formulas, and the initial upper bound is the sum of the weights.
For the constant false see `C31_falsum_false`, for repeated literals `C31_repeated_false`. -/
theorem C31_loading_partial {ord : List (Lit α) → List (Lit α)} (ho : ∀ l, (ord l).Perm l) (ops : List (Op α)) (hok : ∀ op ∈ ops, op.Ok) :
    let s := run ord ops
    (∀ f, f ∈ hards ops ∨ f ∈ (softs ops).map (·.1) → ∀ x ∈ f.vars, ∃ i, s.idx.lookup x = some i ∧ i < s.nbVars) ∧
    (∀ x y i, s.idx.lookup x = some i → s.idx.lookup y = some i → x = y) ∧
    (∀ u v, (∀ x i, s.idx.lookup x = some i → v x = u i) →
      ((∀ c ∈ s.hard, clauseVal u c = true) ↔ ∀ f ∈ hards ops, f.eval v = true) ∧ costC u s.soft = cost v (softs ops)) ∧
    s.ubCost = ((softs ops).map (·.2)).sum := by
  have h := run_loaded ho ops hok
  refine ⟨fun f hf x hx => ?_, h.wf.inj, fun u v ha => ⟨?_, costC_eq u v _ _ (h.soft u v ha)⟩, h.ub⟩
  · obtain ⟨i, hi⟩ := h.vars f hf x hx
    exact ⟨i, hi, h.wf.lt x i hi⟩
  · have h1 := h.hard u v ha
    have h2 : (∀ c ∈ (run ord ops).hard, clauseVal u c = true) ↔ ∀ b ∈ (run ord ops).hard.map (clauseVal u), b = true := by simp
    have h3 : (∀ f ∈ hards ops, f.eval v = true) ↔ ∀ b ∈ (hards ops).map (Fm.eval v), b = true := by simp
    rw [h2, h3, h1]

theorem putLit_weight (st : St α × List Nat) (l : Lit α) : (putLit st l).1.currentWeight = st.1.currentWeight := by
  unfold putLit; dsimp only; split <;> rfl

theorem clauseVec_weight (ord : List (Lit α) → List (Lit α)) (s : St α) (f : Fm α) : (clauseVec ord s f).1.currentWeight = s.currentWeight := by
  have : ∀ (ls : List (Lit α)) (st : St α × List Nat), (ls.foldl putLit st).1.currentWeight = st.1.currentWeight := by
    intro ls
    induction ls with
    | nil => intro st; rfl
    | cons l ls ih => intro st; rw [List.foldl_cons, ih, putLit_weight]
  exact this _ (s, [])

/-- The weight the stratified algorithms start with is the greatest weight of a soft clause (1 if there is none), for every history. -/
theorem C31_weight (ord : List (Lit α) → List (Lit α)) (ops : List (Op α)) :
    (∀ f ∈ softs ops, f.2 ≤ (run ord ops).currentWeight) ∧ ((run ord ops).currentWeight = 1 ∨ ∃ f ∈ softs ops, (run ord ops).currentWeight = f.2) := by
  have : ∀ (ops : List (Op α)) (s : St α), s.currentWeight ≤ (ops.foldl (step ord) s).currentWeight ∧
      (∀ f ∈ softs ops, f.2 ≤ (ops.foldl (step ord) s).currentWeight) ∧
      ((ops.foldl (step ord) s).currentWeight = s.currentWeight ∨ ∃ f ∈ softs ops, (ops.foldl (step ord) s).currentWeight = f.2) := by
    intro ops
    induction ops with
    | nil => intro s; exact ⟨Nat.le_refl _, by simp [softs], Or.inl rfl⟩
    | cons op ops ih =>
      intro s
      obtain ⟨h1, h2, h3⟩ := ih (step ord s op)
      rw [List.foldl_cons]
      cases op with
      | hard f =>
        have : (step ord s (.hard f)).currentWeight = s.currentWeight := clauseVec_weight ord s f
        rw [this] at h1 h3
        exact ⟨h1, h2, h3⟩
      | newVar => exact ⟨h1, h2, h3⟩
      | soft f w =>
        have hw : (step ord s (.soft f w)).currentWeight = if s.currentWeight < w then w else s.currentWeight := by
          simp only [step, addSoft, clauseVec_weight]
        rw [hw] at h1 h3
        simp only [softs, List.mem_cons, forall_eq_or_imp, exists_eq_or_imp]
        refine ⟨by split at h1 <;> omega, ⟨by split at h1 <;> omega, h2⟩, ?_⟩
        rcases h3 with h3 | h3
        · split at h3
          · exact Or.inr (Or.inl h3)
          · exact Or.inl h3
        · exact Or.inr (Or.inr h3)
  obtain ⟨_, h2, h3⟩ := this ops St.new
  exact ⟨h2, h3⟩

/-- The constant false as hard clause becomes the clause `[0]`, which is satisfied when the variable with index 0 is true: the solver finds a model of an
unsatisfiable problem. -/
theorem C31_falsum_false : (run id [Op.hard (.fls : Fm Nat)]).hard = [[0]] ∧ clauseVal (fun _ => true) [0] = true := by decide

/-- A disjunction with a repeated literal (`Clause(b, b)`) gets the additional literal 0, another variable. -/
theorem C31_repeated_false :
    (run id [Op.hard (.lit ⟨7, true⟩ : Fm Nat), Op.hard (.or [.lit ⟨8, true⟩, .lit ⟨8, true⟩])]).hard = [[0], [2, 0]] ∧
    clauseVal (fun i => i == 0) [2, 0] = true ∧ (Fm.or [.lit ⟨8, true⟩, .lit ⟨8, true⟩] : Fm Nat).eval (fun x => x == 7) = false := by decide

theorem cost_sel (sel : Nat → α) (v : α → Bool) : ∀ (soft : List (Fm α × Nat)) (n : Nat),
    (∀ fi ∈ soft.zipIdx n, v (sel fi.2) = fi.1.1.eval v) → cost v ((soft.zipIdx n).map fun fi => (.lit ⟨sel fi.2, true⟩, fi.1.2)) = cost v soft
  | [], _, _ => rfl
  | (f, w) :: soft, n, h => by
    rw [List.zipIdx_cons] at h ⊢
    have h1 := h _ List.mem_cons_self
    have ih := cost_sel sel v soft (n + 1) fun fi hfi => h fi (List.mem_cons_of_mem _ hfi)
    dsimp only at h1
    simp only [List.map_cons, cost, ih, Fm.eval_lit, Lit.eval, if_true, h1]

/-- **C31**, soft formulas: replacing each soft formula by a new selector variable (with the two hard implications) keeps the problem: models of the new hard
formulas are models of the old ones with the same cost, and every model of the old ones extends to the selectors with the same cost. -/
theorem C31_soft (cons : Bool) (sel : Nat → α) (hinj : ∀ i j, sel i = sel j → i = j) (hard : List (Fm α)) (soft : List (Fm α × Nat))
    (hh : ∀ f ∈ hard, ∀ i, sel i ∉ f.vars) (hs : ∀ f ∈ soft, ∀ i, sel i ∉ f.1.vars) :
    (∀ v, (∀ f ∈ hardEnc cons sel hard soft, f.eval v = true) → (∀ f ∈ hard, f.eval v = true) ∧ cost v (softSel sel soft) = cost v soft) ∧
    (∀ v, (∀ f ∈ hard, f.eval v = true) → ∃ v', (∀ f ∈ hardEnc cons sel hard soft, f.eval v' = true) ∧
      cost v' (softSel sel soft) = cost v soft ∧ ∀ x, (∀ i, x ≠ sel i) → v' x = v x) := by
  have henc : ∀ v, (∀ f ∈ hardEnc cons sel hard soft, f.eval v = true) ↔
      (∀ f ∈ hard, f.eval v = true) ∧ ∀ fi ∈ soft.zipIdx, v (sel fi.2) = fi.1.1.eval v := by
    intro v
    simp only [hardEnc, List.mem_append, or_imp, forall_and, List.mem_flatMap]
    refine and_congr_right fun _ => ?_
    constructor
    · intro h fi hfi
      have h1 := h _ ⟨fi, hfi, List.mem_cons_self⟩
      have h2 := h _ ⟨fi, hfi, List.mem_cons_of_mem _ List.mem_cons_self⟩
      simp [Lit.eval] at h1 h2
      revert h1 h2
      cases v (sel fi.2) <;> cases fi.1.1.eval v <;> simp
    · rintro h f ⟨fi, hfi, hf⟩
      have := h fi hfi
      simp only [softEnc, List.mem_cons, List.not_mem_nil, or_false] at hf
      rcases hf with rfl | rfl <;> simp [Lit.eval, this]
  refine ⟨fun v hv => ?_, fun v hv => ?_⟩
  · rw [henc] at hv
    exact ⟨hv.1, cost_sel sel v soft 0 hv.2⟩
  · classical
    let v' : α → Bool := fun x => if h : ∃ i, x = sel i then ((soft[h.choose]?).map fun f => f.1.eval v).getD false else v x
    have h1 : ∀ x, (∀ i, x ≠ sel i) → v' x = v x := fun x hx => dif_neg (by rintro ⟨i, hi⟩; exact hx i hi)
    have h2 : ∀ i f, soft[i]? = some f → v' (sel i) = f.1.eval v := by
      intro i f hf
      have hex : ∃ j, sel i = sel j := ⟨i, rfl⟩
      have : hex.choose = i := (hinj _ _ hex.choose_spec).symm
      simp only [v', dif_pos hex, this, hf, Option.map_some, Option.getD_some]
    have h3 : ∀ f : Fm α, (∀ i, sel i ∉ f.vars) → f.eval v' = f.eval v := fun f hf =>
      Fm.eval_congr f fun x hx => h1 x fun i hi => hf i (hi ▸ hx)
    have h4 : ∀ fi ∈ soft.zipIdx, v' (sel fi.2) = fi.1.1.eval v' := by
      intro fi hfi
      rw [List.mem_zipIdx_iff_getElem?] at hfi
      have hg : soft[fi.2]? = some fi.1 := by simpa using hfi
      rw [h2 _ _ hg, h3 _ (hs _ (List.mem_of_getElem? hg))]
    refine ⟨v', (henc v').2 ⟨fun f hf => by rw [h3 f (hh f hf)]; exact hv f hf, h4⟩, ?_, h1⟩
    rw [softSel, cost_sel sel v' soft 0 h4]
    have : ∀ l : List (Fm α × Nat), (∀ f ∈ l, ∀ i, sel i ∉ f.1.vars) → cost v' l = cost v l := by
      intro l
      induction l with
      | nil => intro _; rfl
      | cons fw l ih =>
        obtain ⟨f, w⟩ := fw
        intro hl
        simp only [cost]
        rw [h3 f (hl _ List.mem_cons_self), ih fun g hg => hl g (List.mem_cons_of_mem _ hg)]
    exact this soft hs

/-! ### cases meeting the hypotheses -/
example : ∀ op ∈ [Op.hard (.or [.lit ⟨8, true⟩, .lit ⟨9, false⟩] : Fm Nat), .newVar, .soft (.lit ⟨8, false⟩) 3], op.Ok := by
  intro op h
  simp only [List.mem_cons, List.not_mem_nil, or_false] at h
  rcases h with rfl | rfl | rfl <;> simp [Op.Ok, Regular]
example : (run id [Op.hard (.or [.lit ⟨8, true⟩, .lit ⟨9, false⟩] : Fm Nat), .newVar, .soft (.lit ⟨8, false⟩) 3]).hard = [[0, 3]] ∧
    (run id [Op.hard (.or [.lit ⟨8, true⟩, .lit ⟨9, false⟩] : Fm Nat), .newVar, .soft (.lit ⟨8, false⟩) 3]).soft = [([1], 3)] := by decide

end Verif.MaxSat
