import Mathlib.Data.List.Nodup
import Mathlib.Data.List.Perm.Basic
import Verif.Factory.Lemmas
/-!
# Assignments and models on handles (C68)

Model of /repo/assignment/assignment.go:11-109 and /repo/model/model.go on the ids of literals: a positive literal, which is a variable, has an odd id, its negation the id with the
last bit changed (formula/formula.go:66-93, formula/factory.go:484-486; C01, C04). The order in which Go iterates over a map is arbitrary, therefore the lists of variables are
relations here. C06 has assignments on names.
-/
namespace Verif.AsgHandles

/-! ## model -/

/-- formula/formula.go:72-74 `IsPos` -/
def isPos (l : Nat) : Bool := l % 2 == 1

/-- formula/factory.go:484-486 `negId` -/
def negId (l : Nat) : Nat := l ^^^ 1

/-- formula/formula.go:82-87 `Literal.Variable` -/
def varOf (l : Nat) : Nat := if isPos l then l else negId l

/-- formula/formula.go:51-54 `Variable.Negate`: the negative literal with the name of the handle; `VarName` finds the name for the handle of a negative literal as well -/
def negateVar (v : Nat) : Nat := if isPos v then negId v else v

/-- assignment.go:12-15, the keys of both maps -/
structure Asg where
  pos : List Nat
  neg : List Nat
deriving DecidableEq

/-- assignment.go:18-20 -/
def empty : Asg := ⟨[], []⟩

/-- assignment.go:40-53 `AddLit`; `none` is the error -/
def addLit (a : Asg) (l : Nat) : Option Asg :=
  if isPos l then
    if l ^^^ 1 ∈ a.neg then none else some ⟨a.pos.insert l, a.neg⟩
  else
    if l ^^^ 1 ∈ a.pos then none else some ⟨a.pos, a.neg.insert l⟩

/-- assignment.go:26-35 `New` from an assignment -/
def addAll (a : Asg) : List Nat → Option Asg
  | [] => some a
  | l :: ls => match addLit a l with
    | none => none
    | some b => addAll b ls

def new (ls : List Nat) : Option Asg := addAll empty ls

/-- assignment.go:56-62 `PosVars`: `EncodeVariable` keeps the id -/
def PosVars (a : Asg) (vs : List Nat) : Prop := vs.Perm a.pos

/-- assignment.go:66-72 `NegVars`: `EncodeVariable` keeps the id -/
def NegVars (a : Asg) (vs : List Nat) : Prop := vs.Perm a.neg

/-- assignment.go:75-77 -/
def size (a : Asg) : Nat := a.pos.length + a.neg.length

/-- model/model.go:29-36 `FromAssignment`, from the results of `PosVars` and `NegVars` -/
def fromAssignment (ps ns : List Nat) : List Nat := ps ++ ns.map negateVar

/-- model/model.go:56-64 -/
def mPosVars (ls : List Nat) : List Nat := ls.filter isPos
/-- model/model.go:67-75 -/
def mNegLits (ls : List Nat) : List Nat := ls.filter fun l => l % 2 == 0
/-- model/model.go:78-87 -/
def mNegVars (ls : List Nat) : List Nat := (ls.filter fun l => l % 2 == 0).map varOf

/-- assignment.go:83-96: the literals of both maps in any order, sorted by the names of their variables. `slices.SortFunc` returns some permutation that is sorted. -/
def Sorted (name : Nat → String) (a : Asg) (ls : List Nat) : Prop := ls.Perm (a.pos ++ a.neg) ∧ ls.Pairwise fun l m => name (varOf l) ≤ name (varOf m)

/-- assignment.go:99-108 and model/model.go:90-102: the text -/
def text (sprint : Nat → String) (ls : List Nat) : String := "[" ++ ", ".intercalate (ls.map sprint) ++ "]"

/-! ## specification -/

/-- assignments after any calls of `AddLit`, also failing ones -/
inductive Reach : Asg → Prop
  | empty : Reach empty
  | ok {a b : Asg} (r : Reach a) (l : Nat) (h : addLit a l = some b) : Reach b

/-! ## lemmas -/

theorem neg_neg (l : Nat) : l ^^^ 1 ^^^ 1 = l := by rw [Nat.xor_assoc]; simp

theorem isPos_neg (l : Nat) : isPos (l ^^^ 1) = !isPos l := by
  unfold isPos
  rcases Factory.negId_cases l with ⟨h, e⟩ | ⟨h, e⟩
  · rw [show l ^^^ 1 = l + 1 from e, h, show (l + 1) % 2 = 1 by omega]; rfl
  · have e : (l ^^^ 1) + 1 = l := e
    rw [h, show (l ^^^ 1) % 2 = 0 by omega]; rfl

structure WF (a : Asg) : Prop where
  pos : ∀ l ∈ a.pos, isPos l = true
  neg : ∀ l ∈ a.neg, isPos l = false
  nodupP : a.pos.Nodup
  nodupN : a.neg.Nodup
  cons : ∀ l ∈ a.pos, l ^^^ 1 ∉ a.neg

theorem WF.empty : WF empty := ⟨by simp [AsgHandles.empty], by simp [AsgHandles.empty], by simp [AsgHandles.empty], by simp [AsgHandles.empty], by simp [AsgHandles.empty]⟩

theorem WF.addLit {a b : Asg} (w : WF a) {l : Nat} (h : addLit a l = some b) : WF b ∧ ∀ m, (m ∈ b.pos ∨ m ∈ b.neg) ↔ (m = l ∨ m ∈ a.pos ∨ m ∈ a.neg) := by
  unfold AsgHandles.addLit at h
  split at h
  · rename_i hp
    split at h
    · cases h
    · rename_i hn
      cases h
      refine ⟨⟨fun m hm => ?_, w.neg, w.nodupP.insert, w.nodupN, fun m hm => ?_⟩, fun m => ?_⟩
      · rcases List.mem_insert_iff.1 hm with rfl | hm
        · exact hp
        · exact w.pos m hm
      · rcases List.mem_insert_iff.1 hm with rfl | hm
        · exact hn
        · exact w.cons m hm
      · simp only [List.mem_insert_iff]
        tauto
  · rename_i hp
    split at h
    · cases h
    · rename_i hn
      cases h
      refine ⟨⟨w.pos, fun m hm => ?_, w.nodupP, w.nodupN.insert, fun m hm hc => ?_⟩, fun m => ?_⟩
      · rcases List.mem_insert_iff.1 hm with rfl | hm
        · simpa using hp
        · exact w.neg m hm
      · rcases List.mem_insert_iff.1 hc with rfl | hc
        · rw [neg_neg] at hn
          exact hn hm
        · exact w.cons m hm hc
      · simp only [List.mem_insert_iff]
        tauto

theorem Reach.wf {a : Asg} (r : Reach a) : WF a := by
  induction r with
  | empty => exact .empty
  | ok r l h ih => exact (ih.addLit h).1

theorem addLit_none {a : Asg} (w : WF a) (l : Nat) : addLit a l = none ↔ l ^^^ 1 ∈ a.pos ∨ l ^^^ 1 ∈ a.neg := by
  have h1 := isPos_neg l
  unfold addLit
  cases hp : isPos l with
  | true =>
    rw [hp] at h1
    have : l ^^^ 1 ∉ a.pos := fun h => by have := w.pos _ h; rw [h1] at this; cases this
    simp [this]
  | false =>
    rw [hp] at h1
    have : l ^^^ 1 ∉ a.neg := fun h => by have := w.neg _ h; rw [h1] at this; cases this
    simp [this]

theorem addAll_spec : ∀ (ls : List Nat) {a : Asg}, WF a →
    (addAll a ls = none ↔ ∃ l ∈ ls, l ^^^ 1 ∈ ls ∨ l ^^^ 1 ∈ a.pos ∨ l ^^^ 1 ∈ a.neg) ∧
    ∀ b, addAll a ls = some b → WF b ∧ (Reach a → Reach b) ∧ ∀ m, (m ∈ b.pos ∨ m ∈ b.neg) ↔ (m ∈ ls ∨ m ∈ a.pos ∨ m ∈ a.neg)
  | [], a, w => by
    refine ⟨by simp [addAll], fun b hb => ?_⟩
    simp only [addAll, Option.some.injEq] at hb
    subst hb
    exact ⟨w, id, by simp⟩
  | l :: ls, a, w => by
    rw [addAll]
    cases e : addLit a l with
    | none =>
      refine ⟨?_, by simp⟩
      simp only [true_iff]
      exact ⟨l, by simp, .inr ((addLit_none w l).1 e)⟩
    | some b =>
      obtain ⟨wb, hb⟩ := w.addLit e
      obtain ⟨h1, h2⟩ := addAll_spec ls wb
      have hne : ¬(l ^^^ 1 ∈ a.pos ∨ l ^^^ 1 ∈ a.neg) := fun h => by rw [(addLit_none w l).2 h] at e; cases e
      have hll : l ^^^ 1 ≠ l := fun h => by
        have := isPos_neg l
        rw [h] at this
        cases hp : isPos l <;> rw [hp] at this <;> cases this
      refine ⟨?_, fun c hc => ?_⟩
      · simp only
        rw [h1]
        constructor
        · rintro ⟨m, hm, h⟩
          rw [hb] at h
          rcases h with h | h | h
          · exact ⟨m, by simp [hm], .inl (by simp [h])⟩
          · exact ⟨m, by simp [hm], .inl (by simp [h])⟩
          · exact ⟨m, by simp [hm], .inr h⟩
        · rintro ⟨m, hm, h⟩
          rcases List.mem_cons.1 hm with rfl | hm
          · rcases h with h | h
            · rcases List.mem_cons.1 h with h | h
              · exact absurd h hll
              · exact ⟨m ^^^ 1, h, .inr ((hb _).2 (.inl (neg_neg m)))⟩
            · exact absurd h hne
          · refine ⟨m, hm, ?_⟩
            rw [hb]
            rcases h with h | h
            · rcases List.mem_cons.1 h with h | h
              · exact .inr (.inl h)
              · exact .inl h
            · exact .inr (.inr h)
      · simp only at hc
        obtain ⟨h3, h4, h5⟩ := h2 c hc
        refine ⟨h3, fun r => h4 (.ok r l e), fun m => ?_⟩
        rw [h5, hb, List.mem_cons]
        tauto

/-! ## properties -/

/-- **C68**: `New` fails if and only if the literals have two complementary ones; otherwise the literals of the assignment are the given ones, the positive ones as variables set to
true, the others in the map of the negative literals. -/
theorem C68_new (ls : List Nat) : (new ls = none ↔ ∃ l ∈ ls, negId l ∈ ls) ∧
    ∀ a, new ls = some a → Reach a ∧ (∀ l, l ∈ a.pos ↔ l ∈ ls ∧ isPos l = true) ∧ ∀ l, l ∈ a.neg ↔ l ∈ ls ∧ isPos l = false := by
  obtain ⟨h1, h2⟩ := addAll_spec ls WF.empty
  refine ⟨by simpa [new, negId, empty] using h1, fun a ha => ?_⟩
  obtain ⟨w, r, h⟩ := h2 a ha
  have h : ∀ m, (m ∈ a.pos ∨ m ∈ a.neg) ↔ m ∈ ls := by simpa [empty] using h
  refine ⟨r .empty, fun l => ⟨fun hl => ⟨(h l).1 (.inl hl), w.pos l hl⟩, fun ⟨hl, hp⟩ => ?_⟩, fun l => ⟨fun hl => ⟨(h l).1 (.inr hl), w.neg l hl⟩, fun ⟨hl, hp⟩ => ?_⟩⟩
  · rcases (h l).2 hl with h | h
    · exact h
    · rw [w.neg l h] at hp; cases hp
  · rcases (h l).2 hl with h | h
    · rw [w.pos l h] at hp; cases hp
    · exact h

/-- **C68**: no assignment gives two values to a variable, `PosVars` returns the variables set to true, each once, and the size is the number of different variables -/
theorem C68_values {a : Asg} (r : Reach a) {vs : List Nat} (h : PosVars a vs) :
    (∀ l ∈ a.pos ++ a.neg, negId l ∉ a.pos ++ a.neg) ∧ vs.Nodup ∧ (∀ v, v ∈ vs ↔ v ∈ a.pos) ∧ (∀ v ∈ vs, isPos v = true) ∧ ((a.pos ++ a.neg).map varOf).Nodup ∧
      ((a.pos ++ a.neg).map varOf).length = size a := by
  have w := r.wf
  have hc : ∀ l ∈ a.pos ++ a.neg, negId l ∉ a.pos ++ a.neg := by
    intro l hl hn
    have hp := isPos_neg l
    unfold negId at hn
    rcases List.mem_append.1 hl with hl | hl <;> rcases List.mem_append.1 hn with hn | hn
    · rw [w.pos _ hl, w.pos _ hn] at hp; cases hp
    · exact w.cons l hl hn
    · exact w.cons _ hn (by rwa [neg_neg])
    · rw [w.neg _ hl, w.neg _ hn] at hp; cases hp
  have hnd : (a.pos ++ a.neg).Nodup := by
    rw [List.nodup_append]
    refine ⟨w.nodupP, w.nodupN, fun x hx y hy => ?_⟩
    rintro rfl
    have := w.pos x hx
    rw [w.neg x hy] at this
    cases this
  refine ⟨hc, (h.nodup_iff).2 w.nodupP, fun v => h.mem_iff, fun v hv => w.pos v (h.mem_iff.1 hv), ?_, by simp [size]⟩
  refine List.Nodup.map_on (fun x hx y hy e => ?_) hnd
  have hx' := hc x hx
  have hy' := hc y hy
  unfold varOf negId at *
  split at e <;> split at e
  · exact e
  · rw [e] at hx; exact absurd hx hy'
  · rw [← e] at hy; exact absurd hy hx'
  · have := congrArg (· ^^^ 1) e
    simpa only [neg_neg] using this

/-- **C68**: an assignment made a model and the model made an assignment again is the same assignment, in whatever order the maps are read -/
theorem C68_roundtrip {a : Asg} (r : Reach a) {ps ns : List Nat} (hp : PosVars a ps) (hn : NegVars a ns) :
    (∀ l, l ∈ fromAssignment ps ns ↔ l ∈ a.pos ∨ l ∈ a.neg) ∧ (fromAssignment ps ns).length = size a ∧
    ∃ b, new (fromAssignment ps ns) = some b ∧ b.pos.Perm a.pos ∧ b.neg.Perm a.neg := by
  have w := r.wf
  have e : ns.map negateVar = ns := by
    conv_rhs => rw [← List.map_id ns]
    refine List.map_congr_left fun l hl => ?_
    unfold negateVar
    rw [w.neg l (hn.mem_iff.1 hl)]
    rfl
  have hm : ∀ l, l ∈ fromAssignment ps ns ↔ l ∈ a.pos ∨ l ∈ a.neg := fun l => by
    unfold fromAssignment
    rw [e, List.mem_append, hp.mem_iff, hn.mem_iff]
  refine ⟨hm, by unfold fromAssignment size; rw [e, List.length_append, hp.length_eq, hn.length_eq], ?_⟩
  obtain ⟨h1, h2⟩ := C68_new (fromAssignment ps ns)
  cases hb : new (fromAssignment ps ns) with
  | none =>
    obtain ⟨l, hl, hl'⟩ := h1.1 hb
    exact absurd (by simpa using (hm _).1 hl') ((C68_values r hp).1 l (by simpa using (hm l).1 hl))
  | some b =>
    obtain ⟨rb, h3, h4⟩ := h2 b hb
    have wb := rb.wf
    refine ⟨b, rfl, (List.perm_ext_iff_of_nodup wb.nodupP w.nodupP).2 fun l => ?_, (List.perm_ext_iff_of_nodup wb.nodupN w.nodupN).2 fun l => ?_⟩
    · rw [h3, hm]
      exact ⟨fun h => h.1.elim id (fun hl => (by have := h.2; rw [w.neg l hl] at this; cases this)), fun h => ⟨.inl h, w.pos l h⟩⟩
    · rw [h4, hm]
      exact ⟨fun h => h.1.elim (fun hl => (by have := h.2; rw [w.pos l hl] at this; cases this)) id, fun h => ⟨.inr h, w.neg l h⟩⟩

/-- **C68**: a model is split into its positive variables and its negative literals; the negative variables are those of the negative literals -/
theorem C68_model (ls : List Nat) : (mPosVars ls ++ mNegLits ls).Perm ls ∧ (∀ v ∈ mPosVars ls, isPos v = true) ∧ (∀ l ∈ mNegLits ls, isPos l = false) ∧
    (∀ v, v ∈ mNegVars ls ↔ isPos v = true ∧ negId v ∈ ls) ∧ (mNegVars ls).length = (mNegLits ls).length := by
  have e : (fun l : Nat => l % 2 == 0) = fun l => !isPos l := by
    funext l
    unfold isPos
    rcases Nat.mod_two_eq_zero_or_one l with h | h <;> rw [h] <;> rfl
  unfold mPosVars mNegLits mNegVars
  rw [e]
  refine ⟨List.filter_append_perm _ _, by simp, by simp, fun v => ?_, by simp⟩
  simp only [List.mem_map, List.mem_filter, Bool.not_eq_true']
  constructor
  · rintro ⟨l, ⟨hl, hp⟩, rfl⟩
    unfold varOf negId
    rw [hp]
    simp only [Bool.false_eq_true, if_false, neg_neg]
    exact ⟨by rw [isPos_neg, hp]; rfl, hl⟩
  · rintro ⟨hp, hl⟩
    unfold negId at hl
    refine ⟨v ^^^ 1, ⟨hl, by rw [isPos_neg, hp]; rfl⟩, ?_⟩
    unfold varOf negId
    rw [isPos_neg, hp]
    simp [neg_neg]

/-- **C68**: the text of an assignment does not depend on the order in which the maps are read: different variables have different names (C01), so the sorted list is unique -/
theorem C68_sprint {a : Asg} (r : Reach a) {name : Nat → String} (hn : ∀ v w, isPos v = true → isPos w = true → name v = name w → v = w) {ls ms : List Nat}
    (h1 : Sorted name a ls) (h2 : Sorted name a ms) (sprint : Nat → String) : ls = ms ∧ text sprint ls = text sprint ms := by
  have hv := (C68_values r (List.Perm.refl _)).2.2.2.2.1
  have hvp : ∀ l, isPos (varOf l) = true := fun l => by
    unfold varOf negId
    split
    · assumption
    · rename_i h; rw [isPos_neg]; simpa using h
  have key : ls = ms := by
    refine List.Perm.eq_of_pairwise (le := fun l m => name (varOf l) ≤ name (varOf m)) (fun x y hx hy hxy hyx => ?_) h1.2 h2.2 (h1.1.trans h2.1.symm)
    have hx' := h1.1.mem_iff.1 hx
    have hy' := h2.1.mem_iff.1 hy
    have e : varOf x = varOf y := hn _ _ (hvp x) (hvp y) (String.le_antisymm hxy hyx)
    exact List.inj_on_of_nodup_map hv hx' hy' e
  exact ⟨key, by rw [key]⟩

/-! ## where the claim is false -/

/-- "this function return the variables, not the negative literals": `NegVars` returns the negative literals; nothing it returns is a variable, for any assignment -/
theorem C68_negVars_false {a : Asg} (r : Reach a) {vs : List Nat} (h : NegVars a vs) : ∀ v ∈ vs, isPos v = false ∧ ∀ l ∈ a.neg, v ≠ varOf l := by
  intro v hv
  have hv' := r.wf.neg v (h.mem_iff.1 hv)
  refine ⟨hv', fun l hl e => ?_⟩
  have : isPos (varOf l) = true := by
    unfold varOf negId
    rw [r.wf.neg l hl]
    simp only [Bool.false_eq_true, if_false]
    rw [isPos_neg, r.wf.neg l hl]
    rfl
  rw [← e, hv'] at this
  cases this

/-! ## examples: a = 3, ~a = 2, b = 5, ~b = 4, c = 7 -/

example : new [3, 4, 7, 4] = some ⟨[7, 3], [4]⟩ ∧ new [3, 4, 5] = none := by decide
example : Reach ⟨[7, 3], [4]⟩ := ((C68_new [3, 4, 7, 4]).2 _ (by decide)).1
example : PosVars ⟨[7, 3], [4]⟩ [3, 7] ∧ NegVars ⟨[7, 3], [4]⟩ [4] ∧ fromAssignment [3, 7] [4] = [3, 7, 4] := by
  refine ⟨?_, List.Perm.refl _, rfl⟩
  exact List.Perm.swap _ _ _
example : mPosVars [3, 4, 7] = [3, 7] ∧ mNegLits [3, 4, 7] = [4] ∧ mNegVars [3, 4, 7] = [5] := by decide
/-- the hypotheses of `C68_sprint` -/
example : let name : Nat → String := fun v => String.ofList (List.replicate v 'x')
    (∀ v w, isPos v = true → isPos w = true → name v = name w → v = w) ∧ Sorted name ⟨[7, 3], [4]⟩ [3, 4, 7] := by
  refine ⟨fun v w _ _ h => ?_, ?_, by decide +kernel⟩
  · simpa using congrArg String.length h
  · decide

end Verif.AsgHandles
