import Verif.MaxSat.Loading
import Mathlib.Data.List.Perm.Subperm
import Mathlib.Data.List.Nodup
/-!
# `np/set_cover.go` (C43)

The MaxSAT solver enters with its specification (C30 with C31): `solve hard soft` is a model of the hard formulas with the least cost.
The selector of the `i`-th set is the variable `i`.
-/
namespace Verif.MaxSat
open Verif Verif.Tree
variable {T : Type} [DecidableEq T]

/-- result of a MaxSAT call: `none` unsatisfiable, otherwise a model -/
abbrev MaxOracle (α : Type) := List (Fm α) → List (Fm α × Nat) → Option (α → Bool)

/-- specification of the MaxSAT solver -/
def MaxOracle.Ok {α : Type} (solve : MaxOracle α) : Prop := ∀ hard soft,
  (solve hard soft = none → ¬ ∃ v, ∀ f ∈ hard, f.eval v = true) ∧
  ∀ v, solve hard soft = some v → (∀ f ∈ hard, f.eval v = true) ∧ ∀ w, (∀ f ∈ hard, f.eval w = true) → cost v soft ≤ cost w soft

/-- set_cover.go:24-37: the elements, each once; `elementOccurrences` -/
def elements (sets : List (List T)) : List T := sets.flatten.eraseDups

/-- set_cover.go:28-37: the selectors of the sets an element occurs in -/
def occurrences (sets : List (List T)) (e : T) : List Nat := (List.range sets.length).filter fun i => decide (e ∈ (sets[i]?).getD [])

/-- set_cover.go:39-46 -/
def coverHard (cons : Bool) (ordE : List T → List T) (sets : List (List T)) : List (Fm Nat) :=
  (ordE (elements sets)).map fun e => tOr cons ((occurrences sets e).map fun i => .lit ⟨i, true⟩)

/-- set_cover.go:47-49 -/
def coverSoft (ord : List Nat → List Nat) (sets : List (List T)) : List (Fm Nat × Nat) :=
  (ord (List.range sets.length)).map fun i => (.lit ⟨i, false⟩, 1)

/-- set_cover.go:19-66 `MinimumSetCover`; `none` is the panic.  `ordE`, `ord1`, `ord2` are the iteration orders of the hash maps. -/
def setCover (cons : Bool) (ordE : List T → List T) (ord1 ord2 : List Nat → List Nat) (solve : MaxOracle Nat) (sets : List (List T)) : Option (List (List T)) :=
  if sets.isEmpty then some []
  else match solve (coverHard cons ordE sets) (coverSoft ord1 sets) with
    | none => none
    | some v => some (((ord2 (List.range sets.length)).filter v).filterMap fun i => sets[i]?)

/-! ## specification -/

/-- every element of the collection is in some of the chosen sets -/
def Covers (sets r : List (List T)) : Prop := ∀ s ∈ sets, ∀ e ∈ s, ∃ s' ∈ r, e ∈ s'

/-! ## lemmas -/

theorem mem_occurrences (sets : List (List T)) (e : T) (i : Nat) : i ∈ occurrences sets e ↔ ∃ s, sets[i]? = some s ∧ e ∈ s := by
  simp only [occurrences, List.mem_filter, List.mem_range, decide_eq_true_eq]
  constructor
  · rintro ⟨h1, h2⟩
    rw [List.getElem?_eq_getElem h1] at h2 ⊢
    exact ⟨_, rfl, h2⟩
  · rintro ⟨s, h1, h2⟩
    obtain ⟨h3, rfl⟩ := List.getElem?_eq_some_iff.1 h1
    exact ⟨h3, by simpa [h1] using h2⟩

theorem coverHard_eval (cons : Bool) {ordE : List T → List T} (ho : ∀ l, (ordE l).Perm l) (sets : List (List T)) (v : Nat → Bool) :
    (∀ f ∈ coverHard cons ordE sets, f.eval v = true) ↔ ∀ s ∈ sets, ∀ e ∈ s, ∃ (i : Nat) (s' : List T), sets[i]? = some s' ∧ e ∈ s' ∧ v i = true := by
  simp only [coverHard, List.mem_map]
  constructor
  · intro h s hs e he
    have h1 := h _ ⟨e, (ho _).mem_iff.2 (by simp [elements]; exact ⟨s, hs, he⟩), rfl⟩
    rw [eval_tOr, List.any_eq_true] at h1
    obtain ⟨f, hf, hv⟩ := h1
    obtain ⟨i, hi, rfl⟩ := List.mem_map.1 hf
    obtain ⟨s', h3, h4⟩ := (mem_occurrences sets e i).1 hi
    exact ⟨i, s', h3, h4, by simpa [Lit.eval] using hv⟩
  · rintro h f ⟨e, he, rfl⟩
    have he := (ho _).mem_iff.1 he
    simp only [elements, List.mem_eraseDups, List.mem_flatten] at he
    obtain ⟨s, hs, hes⟩ := he
    obtain ⟨i, s', h1, h2, h3⟩ := h s hs e hes
    rw [eval_tOr, List.any_eq_true]
    exact ⟨_, List.mem_map.2 ⟨i, (mem_occurrences sets e i).2 ⟨s', h1, h2⟩, rfl⟩, by simpa [Lit.eval] using h3⟩

theorem cost_unit (v : Nat → Bool) (l : List Nat) : cost v (l.map fun i => (Fm.lit ⟨i, false⟩, 1)) = (l.filter v).length := by
  induction l with
  | nil => rfl
  | cons i l ih =>
    simp only [List.map_cons, cost, ih, Fm.eval_lit, Lit.eval, List.filter_cons]
    cases v i <;> simp
    omega

theorem filterMap_len (sets : List (List T)) : ∀ (J : List Nat), (∀ i ∈ J, i < sets.length) → (J.filterMap fun i => sets[i]?).length = J.length
  | [], _ => rfl
  | i :: J, h => by
    have hi := h i List.mem_cons_self
    simp [hi, filterMap_len sets J fun j hj => h j (List.mem_cons_of_mem _ hj)]

theorem range_filterMap (sets : List (List T)) : (List.range sets.length).filterMap (fun i => sets[i]?) = sets := by
  have : ∀ (n : Nat), n ≤ sets.length → (List.range n).filterMap (fun i => sets[i]?) = sets.take n := by
    intro n
    induction n with
    | zero => simp
    | succ n ih =>
      intro hn
      rw [List.range_succ, List.filterMap_append, ih (by omega), List.take_add_one]
      congr 1
  rw [this _ (Nat.le_refl _), List.take_length]

/-! ## C43 -/

/-- **C43**: for every collection of sets the result is a subcollection covering every element, with the least possible number of sets, and the code does not
panic; whatever the iteration orders of the hash maps. -/
theorem C43_setCover_partial (cons : Bool) {ordE : List T → List T} (hoE : ∀ l, (ordE l).Perm l) {ord1 ord2 : List Nat → List Nat} (ho1 : ∀ l, (ord1 l).Perm l)
    (ho2 : ∀ l, (ord2 l).Perm l) {solve : MaxOracle Nat} (hsolve : solve.Ok) (sets : List (List T)) :
    ∃ r, setCover cons ordE ord1 ord2 solve sets = some r ∧ r.Subperm sets ∧ Covers sets r ∧
      ∀ c, c.Sublist sets → Covers sets c → r.length ≤ c.length := by
  unfold setCover
  by_cases he : sets = []
  · subst he
    exact ⟨[], by simp, by simp, by simp [Covers], fun c _ _ => Nat.zero_le _⟩
  have he' : sets.isEmpty = false := by simpa using he
  rw [he']
  simp only [Bool.false_eq_true, if_false]
  cases hc : solve (coverHard cons ordE sets) (coverSoft ord1 sets) with
  | none =>
    refine absurd ⟨fun _ => true, ?_⟩ ((hsolve _ _).1 hc)
    rw [coverHard_eval cons hoE]
    intro s hs e hes
    obtain ⟨i, hi, rfl⟩ := List.getElem_of_mem hs
    exact ⟨i, sets[i], List.getElem?_eq_getElem hi, hes, rfl⟩
  | some v =>
    obtain ⟨h1, h2⟩ := (hsolve _ _).2 v hc
    rw [coverHard_eval cons hoE] at h1
    have hlt : ∀ i ∈ (ord2 (List.range sets.length)).filter v, i < sets.length := fun i hi =>
      List.mem_range.1 ((ho2 _).mem_iff.1 (List.mem_filter.1 hi).1)
    have hlen : ∀ (ord : List Nat → List Nat), (∀ l, (ord l).Perm l) → ∀ w : Nat → Bool,
        ((ord (List.range sets.length)).filter w).length = ((List.range sets.length).filter w).length := fun ord ho w =>
      ((ho _).filter w).length_eq
    refine ⟨_, rfl, ?_, ?_, ?_⟩
    · have h3 : ((ord2 (List.range sets.length)).filter v).Subperm (List.range sets.length) :=
        List.filter_sublist.subperm.trans (ho2 _).subperm
      obtain ⟨l, hl1, hl2⟩ := h3
      have h4 := hl2.filterMap fun i => sets[i]?
      rw [range_filterMap] at h4
      exact ⟨_, hl1.filterMap _, h4⟩
    · intro s hs e hes
      obtain ⟨i, s', h3, h4, h5⟩ := h1 s hs e hes
      refine ⟨s', List.mem_filterMap.2 ⟨i, List.mem_filter.2 ⟨(ho2 _).mem_iff.2 ?_, h5⟩, h3⟩, h4⟩
      exact List.mem_range.2 (List.getElem?_eq_some_iff.1 h3).1
    · intro c hcs hcov
      have hz : sets = sets.zipIdx.map (·.1) := by simp [List.zipIdx_map_fst]
      rw [hz, List.sublist_map_iff] at hcs
      obtain ⟨L, hL, rfl⟩ := hcs
      have hLget : ∀ pi ∈ L, sets[pi.2]? = some pi.1 := by
        intro pi hpi
        have := hL.subset hpi
        rw [List.mem_zipIdx_iff_getElem?] at this
        simpa using this
      have h3 := h2 (fun i => decide (i ∈ L.map (·.2))) (by
        rw [coverHard_eval cons hoE]
        intro s hs e hes
        obtain ⟨s', hs', he'⟩ := hcov s hs e hes
        obtain ⟨pi, hpi, rfl⟩ := List.mem_map.1 hs'
        exact ⟨pi.2, pi.1, hLget pi hpi, he', by simpa using ⟨pi.1, hpi⟩⟩)
      rw [coverSoft, cost_unit, cost_unit, hlen ord1 ho1, hlen ord1 ho1] at h3
      rw [filterMap_len sets _ hlt, hlen ord2 ho2]
      have h4 : ((List.range sets.length).filter fun i => decide (i ∈ L.map (·.2))).length ≤ (L.map (·.2)).length :=
        (List.subperm_of_subset (List.nodup_range.filter _) fun i hi => by
          have := (List.mem_filter.1 hi).2
          simpa only [decide_eq_true_eq] using this).length_le
      simp only [List.length_map] at h4 ⊢
      omega

/-! ### a case: three sets, two of them suffice -/
section Example
/-- MaxSAT by truth tables over three variables -/
private def tt : MaxOracle Nat := fun hard soft =>
  let vs : List (Nat → Bool) := (List.range 8).map fun m x => Nat.testBit m x
  let ms := vs.filter fun v => hard.all (·.eval v)
  ms.foldl (fun b v => match b with | none => some v | some b => if cost v soft < cost b soft then some v else some b) none
example : setCover false id id id tt [[1, 2], [2], [2, 3]] = some [[1, 2], [2, 3]] := by decide +kernel
end Example

end Verif.MaxSat
