import Verif.Data.SetModel
import Mathlib.Data.List.Nodup
import Mathlib.Data.List.Sort
import Mathlib.Data.Set.Basic
import Mathlib.Data.Set.Card
/-!
# C38: the sets behave like mathematical sets
-/
namespace Verif.Data

/-- specification: every reference holds a mathematical set -/
abbrev Abs := Nat → Set Nat

/-- specification of the calls; `n` is the number of references in use -/
def absStep (n : Nat) (A : Abs) : SetOp → Abs
  | .new es => fun i => if i = n then {e | e ∈ es} else A i
  | .newCopy rs => fun i => if i = n then {e | ∃ r ∈ rs, r < n ∧ e ∈ A r} else A i
  | .add r e => fun i => if i = r then insert e (A r) else A i
  | .addAll r o => fun i => if i = r then A r ∪ A o else A i
  | .addAllElements r es => fun i => if i = r then A r ∪ {e | e ∈ es} else A i
  | .remove r e => fun i => if i = r then A r \ {e} else A i
  | .removeAll r o => fun i => if i = r then A r \ A o else A i
  | .removeAllElements r es => fun i => if i = r then A r \ {e | e ∈ es} else A i
  | .content _ => A

/-- the references of a call exist -/
def validOp (n : Nat) : SetOp → Prop
  | .new _ => True
  | .newCopy rs => ∀ r ∈ rs, r < n
  | .add r _ | .remove r _ | .addAllElements r _ | .removeAllElements r _ | .content r => r < n
  | .addAll r o | .removeAll r o => r < n ∧ o < n

def creates : SetOp → Bool
  | .new _ | .newCopy _ => true
  | _ => false

/-- executions of the store next to the specification -/
inductive Run (ord : List Nat → List Nat) : Store → Abs → Prop
  | init : Run ord [] (fun _ => ∅)
  | step {st A} (op : SetOp) : Run ord st A → validOp st.length op → Run ord (setStep ord st op) (absStep st.length A op)

/-- one set represents a mathematical set -/
structure Rep (s : FSet) (X : Set Nat) : Prop where
  nodup : s.elems.Nodup
  mem : ∀ e, e ∈ s.elems ↔ e ∈ X
  content : ∀ c, s.content = some c → c.Pairwise (· < ·) ∧ ∀ e, e ∈ c ↔ e ∈ X

theorem mapAdd_nodup {m : List Nat} (h : m.Nodup) (e : Nat) : (mapAdd m e).Nodup := by
  unfold mapAdd; split
  · exact h
  · rename_i he; exact List.nodup_cons.2 ⟨he, h⟩
theorem mem_mapAdd {m : List Nat} {e x : Nat} : x ∈ mapAdd m e ↔ x = e ∨ x ∈ m := by
  unfold mapAdd; split
  · rename_i he; exact ⟨.inr, fun h => h.elim (fun h => h ▸ he) id⟩
  · simp
theorem foldAdd (es : List Nat) : ∀ {m : List Nat}, m.Nodup → (es.foldl mapAdd m).Nodup ∧ ∀ x, x ∈ es.foldl mapAdd m ↔ x ∈ m ∨ x ∈ es := by
  induction es with
  | nil => intro m h; simp [h]
  | cons e es ih =>
    intro m h
    obtain ⟨h1, h2⟩ := ih (mapAdd_nodup h e)
    refine ⟨h1, fun x => ?_⟩
    rw [List.foldl_cons, h2, mem_mapAdd, List.mem_cons]
    constructor
    · rintro ((h | h) | h)
      · exact .inr (.inl h)
      · exact .inl h
      · exact .inr (.inr h)
    · rintro (h | h | h)
      · exact .inl (.inr h)
      · exact .inl (.inl h)
      · exact .inr h
theorem foldDel (es : List Nat) : ∀ {m : List Nat}, m.Nodup → (es.foldl mapDel m).Nodup ∧ ∀ x, x ∈ es.foldl mapDel m ↔ x ∈ m ∧ x ∉ es := by
  induction es with
  | nil => intro m h; simp [h]
  | cons e es ih =>
    intro m h
    obtain ⟨h1, h2⟩ := ih (m := mapDel m e) (h.filter _)
    refine ⟨h1, fun x => ?_⟩
    rw [List.foldl_cons, h2, mapDel, List.mem_filter, List.mem_cons]
    simp [and_assoc]

theorem sortIds_mem {l : List Nat} {e : Nat} : e ∈ sortIds l ↔ e ∈ l := List.mem_mergeSort
theorem sortIds_strict {l : List Nat} (h : l.Nodup) : (sortIds l).Pairwise (· < ·) := by
  have h1 : (sortIds l).Pairwise (fun a b => decide (a ≤ b) = true) := List.pairwise_mergeSort (by intro a b c; simp; omega) (by intro a b; simp; omega) l
  have h2 : (sortIds l).Nodup := (List.mergeSort_perm l _).nodup_iff.2 h
  exact (h1.and h2).imp fun {a b} ⟨h, h'⟩ => by simp at h; omega

theorem rep_setContent {ord : List Nat → List Nat} (hord : ∀ l, (ord l).Perm l) {s : FSet} {X : Set Nat} (h : Rep s X) : Rep (setContent ord s) X := by
  refine ⟨h.nodup, h.mem, fun c hc => ?_⟩
  simp only [setContent, Option.some.injEq] at hc; subst hc
  exact ⟨sortIds_strict ((hord _).nodup_iff.2 h.nodup), fun e => by rw [sortIds_mem, (hord _).mem_iff, h.mem]⟩

/-- the store represents the specification -/
def RepAll (st : Store) (A : Abs) : Prop := ∀ i s, st[i]? = some s → Rep s (A i)

theorem get_of {st : Store} {i : Nat} {s : FSet} (h : st[i]? = some s) : get st i = s := by simp [get, h]

theorem repAll_modify {st : Store} {A B : Abs} (h : RepAll st A) {r : Nat} {g : FSet → FSet} (h1 : ∀ s, st[r]? = some s → Rep (g s) (B r)) (h2 : ∀ i, i ≠ r → B i = A i) :
    RepAll (st.modify r g) B := by
  intro i s hs
  rw [List.getElem?_modify] at hs
  by_cases e : i = r
  · subst e
    simp only [if_true] at hs
    cases hq : st[i]? with
    | none => simp [hq] at hs
    | some t => simp [hq] at hs; subst hs; exact h1 t hq
  · have e' : r ≠ i := fun h => e h.symm
    simp only [if_neg e'] at hs
    rw [h2 i e]
    cases hq : st[i]? with
    | none => simp [hq] at hs
    | some t => simp [hq] at hs; subst hs; exact h i t hq

theorem repAll_append {st : Store} {A B : Abs} (h : RepAll st A) {s : FSet} (h1 : Rep s (B st.length)) (h2 : ∀ i, i ≠ st.length → B i = A i) : RepAll (st ++ [s]) B := by
  intro i t ht
  by_cases e : i < st.length
  · rw [List.getElem?_append_left e] at ht
    rw [h2 i (by omega)]; exact h i t ht
  · rw [List.getElem?_append_right (by omega)] at ht
    have : i - st.length = 0 := by
      cases hz : i - st.length with
      | zero => rfl
      | succ n => rw [hz] at ht; simp at ht
    rw [this] at ht
    simp at ht; subst ht
    have : i = st.length := by omega
    rw [this]; exact h1

theorem elemsOf_rep {st : Store} {A : Abs} (h : RepAll st A) {o : Nat} (ho : o < st.length) : ∀ e, e ∈ elemsOf st o ↔ e ∈ A o := by
  obtain ⟨s, hs⟩ : ∃ s, st[o]? = some s := ⟨_, List.getElem?_eq_getElem ho⟩
  intro e
  rw [elemsOf, get_of hs]
  exact (h o s hs).mem e

theorem foldCopy {ord : List Nat → List Nat} (st : Store) (rs : List Nat) : ∀ {m : List Nat}, m.Nodup →
    (rs.foldl (fun m r => (ord (elemsOf st r)).foldl mapAdd m) m).Nodup ∧
      ∀ x, x ∈ rs.foldl (fun m r => (ord (elemsOf st r)).foldl mapAdd m) m ↔ x ∈ m ∨ ∃ r ∈ rs, x ∈ ord (elemsOf st r) := by
  induction rs with
  | nil => intro m h; simp [h]
  | cons r rs ih =>
    intro m h
    obtain ⟨h1, h2⟩ := foldAdd (ord (elemsOf st r)) h
    obtain ⟨h3, h4⟩ := ih h1
    refine ⟨h3, fun x => ?_⟩
    rw [List.foldl_cons, h4, h2]
    simp [or_assoc]

theorem run_rep {ord : List Nat → List Nat} (hord : ∀ l, (ord l).Perm l) {st : Store} {A : Abs} (h : Run ord st A) : RepAll st A := by
  induction h with
  | init => intro i s hs; simp at hs
  | @step st A op _ hv ih =>
    cases op with
    | new es =>
      refine repAll_append ih (rep_setContent hord ?_) fun i hi => by simp [absStep, hi]
      have := foldAdd es (m := []) List.nodup_nil
      exact ⟨this.1, fun e => by simp [this.2, absStep], by simp⟩
    | newCopy rs =>
      refine repAll_append ih (rep_setContent hord ?_) fun i hi => by simp [absStep, hi]
      have := foldCopy (ord := ord) st rs (m := []) List.nodup_nil
      refine ⟨this.1, fun e => ?_, by simp⟩
      simp only [this.2, absStep, if_true, List.not_mem_nil, false_or, Set.mem_setOf_eq]
      exact exists_congr fun r => and_congr_right fun hr => by
        rw [(hord _).mem_iff, elemsOf_rep ih (hv r hr)]; exact ⟨fun h => ⟨hv r hr, h⟩, fun h => h.2⟩
    | add r e =>
      refine repAll_modify ih (fun s hs => ?_) fun i hi => by simp [absStep, hi]
      have := ih r s hs
      exact ⟨mapAdd_nodup this.nodup e, fun x => by simp [mem_mapAdd, absStep, this.mem], by simp⟩
    | addAll r o =>
      refine repAll_modify ih (fun s hs => ?_) fun i hi => by simp [absStep, hi]
      have := ih r s hs
      have h2 := foldAdd (ord (elemsOf st o)) this.nodup
      exact ⟨h2.1, fun x => by simp [h2.2, absStep, this.mem, (hord _).mem_iff, elemsOf_rep ih hv.2], by simp⟩
    | addAllElements r es =>
      refine repAll_modify ih (fun s hs => ?_) fun i hi => by simp [absStep, hi]
      have := ih r s hs
      have h2 := foldAdd es this.nodup
      exact ⟨h2.1, fun x => by simp [h2.2, absStep, this.mem], by simp⟩
    | remove r e =>
      refine repAll_modify ih (fun s hs => ?_) fun i hi => by simp [absStep, hi]
      have := ih r s hs
      exact ⟨this.nodup.filter _, fun x => by simp [mapDel, absStep, this.mem], by simp⟩
    | removeAll r o =>
      refine repAll_modify ih (fun s hs => ?_) fun i hi => by simp [absStep, hi]
      have := ih r s hs
      have h2 := foldDel (ord (elemsOf st o)) this.nodup
      exact ⟨h2.1, fun x => by simp [h2.2, absStep, this.mem, (hord _).mem_iff, elemsOf_rep ih hv.2], by simp⟩
    | removeAllElements r es =>
      refine repAll_modify ih (fun s hs => ?_) fun i hi => by simp [absStep, hi]
      have := ih r s hs
      have h2 := foldDel es this.nodup
      exact ⟨h2.1, fun x => by simp [h2.2, absStep, this.mem], by simp⟩
    | content r =>
      refine repAll_modify ih (fun s hs => ?_) fun i hi => by simp [absStep]
      split
      · exact rep_setContent hord (ih r s hs)
      · exact ih r s hs

/-- **C38.** After any sequence of calls on any number of (possibly aliased) sets, every query gives the answer of the mathematical sets, and `Content` is the
strictly increasing list of the elements. -/
theorem C38_sets {ord : List Nat → List Nat} (hord : ∀ l, (ord l).Perm l) {st : Store} {A : Abs} (h : Run ord st A) {r : Nat} (hr : r < st.length) :
    (isEmpty st r = true ↔ A r = ∅) ∧ size st r = (A r).ncard ∧ (∀ e, contains st r e = true ↔ e ∈ A r) ∧
    (∀ o, o < st.length → (containsAll ord st r o = true ↔ A o ⊆ A r)) ∧
    (contentOf ord st r).Pairwise (· < ·) ∧ ∀ e, e ∈ contentOf ord st r ↔ e ∈ A r := by
  have R := run_rep hord h
  obtain ⟨s, hs⟩ : ∃ s, st[r]? = some s := ⟨_, List.getElem?_eq_getElem hr⟩
  have rs := R r s hs
  have hm := elemsOf_rep R hr
  have hset : A r = (↑(elemsOf st r).toFinset : Set Nat) := by ext e; simp [hm]
  have he : elemsOf st r = s.elems := by rw [elemsOf, get_of hs]
  refine ⟨?_, ?_, fun e => by simp [contains, hm], fun o ho => ?_, ?_⟩
  · rw [isEmpty, beq_iff_eq, List.length_eq_zero_iff, List.eq_nil_iff_forall_not_mem, Set.eq_empty_iff_forall_notMem]
    exact forall_congr' fun e => by rw [hm]
  · rw [hset, Set.ncard_coe_finset, size, List.toFinset_card_of_nodup (by rw [he]; exact rs.nodup)]
  · simp only [containsAll, List.all_eq_true, List.contains_eq_mem, decide_eq_true_eq]
    constructor
    · intro h e heo
      exact (hm e).1 (h e ((hord _).mem_iff.2 ((elemsOf_rep R ho e).2 heo)))
    · intro h e heo
      exact (hm e).2 (h ((elemsOf_rep R ho e).1 ((hord _).mem_iff.1 heo)))
  · rw [contentOf, get_of hs]
    cases hc : s.content with
    | some c => exact rs.content c hc
    | none =>
      rw [he]
      exact ⟨sortIds_strict ((hord _).nodup_iff.2 rs.nodup), fun e => by rw [sortIds_mem, (hord _).mem_iff, rs.mem]⟩

/-- a set removed from itself is empty, its copy is not changed -/
example : ∃ st A, Run id st A ∧ st.length = 2 ∧ isEmpty st 0 = true ∧ size st 1 = 3 ∧ contains st 1 7 = true :=
  ⟨_, _, .step (.removeAll 0 0) (.step (.add 1 2) (.step (.content 1) (.step (.newCopy [0]) (.step (.new [7, 1, 7]) .init trivial) (by simp [validOp, setStep]))
    (by simp [validOp, setStep])) (by simp [validOp, setStep])) (by simp [validOp, setStep]), by simp [setStep], by rfl, by rfl, by rfl⟩

end Verif.Data
