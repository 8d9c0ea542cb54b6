import Verif.Factory.FuncProps
import Verif.Spec.Count
/-!
# Model counting on d-DNNFs

`/repo/dnnf/dnnf.go`.  Numbers are unbounded, as `big.Int` is.  `Variables` has its own cache, whose content does not matter (`C41_variables`); it is left out here.
-/
namespace Verif.Dnnf
open Verif Verif.Func
variable {α : Type} [DecidableEq α]

/-! ## specification -/

/-- deterministic decomposable formulas: no two operands of a conjunction share a variable, no two operands of a disjunction hold at the same time -/
inductive DDnnf : Fm α → Prop
  | fls : DDnnf .fls
  | tru : DDnnf .tru
  | lit (l : Lit α) : DDnnf (.lit l)
  | and {fs : List (Fm α)} : (∀ f ∈ fs, DDnnf f) → fs.Pairwise (fun f g => ∀ x ∈ f.vars, x ∉ g.vars) → DDnnf (.and fs)
  | or {fs : List (Fm α)} : (∀ f ∈ fs, DDnnf f) → fs.Pairwise (fun f g => ∀ v, f.eval v = true → g.eval v = false) → DDnnf (.or fs)

/-! ## model -/

/-- the variables of a formula (set.go:202-240) -/
def varSet (f : Fm α) : List α := (memo varsNode [] f).1

/-- dnnf.go:50-52: product of the counts of the operands; `none`: panic -/
def mulAll : List (Option Nat) → Option Nat
  | [] => some 1
  | r :: rs => match r, mulAll rs with
    | some a, some b => some (a * b)
    | _, _ => none

/-- dnnf.go:53-62: the counts of the operands over `n` variables; `none`: panic -/
def addAll (n : Nat) : List (Fm α × Option Nat) → Option Nat
  | [] => some 0
  | (f, r) :: rs => match r, addAll n rs with
    | some a, some b => some (a * 2 ^ (n - (varSet f).length) + b)
    | _, _ => none

/-- dnnf.go:44-66 `count` without the cache; `none`: the dereferenced nil pointer of the other sorts (line 66) -/
def countNode : Fm α → List (Option Nat) → Option Nat
  | .lit _, _ => some 1
  | .tru, _ => some 1
  | .fls, _ => some 0
  | .and _, rs => mulAll rs
  | .or fs, rs => addAll (varSet (.or fs)).length (fs.zip rs)
  | _, _ => none

/-- dnnf.go:18-37 `ModelCount` with 39-67 `count`: result and the cache afterwards -/
def modelCount (c : Cache α (Option Nat)) (orig : List α) (f : Fm α) : Option Nat × Cache α (Option Nat) :=
  let r := memo countNode c f
  (r.1.map (· * 2 ^ orig.countP fun x => decide (x ∉ varSet f)), r.2)

/-! ## counting -/

theorem varSet_nodup (f : Fm α) : (varSet f).Nodup := (C41_variables .init f).1
theorem mem_varSet {f : Fm α} {x : α} : x ∈ varSet f ↔ x ∈ f.vars := (C41_variables .init f).2.1 x

theorem dep_varSet (f : Fm α) : DependsOn (fun v => f.eval v) (varSet f) := dependsOn_eval f fun _ hx => mem_varSet.2 hx

theorem count_superset {V W : List α} {p : (α → Bool) → Bool} (hV : V.Nodup) (hW : W.Nodup) (hs : ∀ x ∈ V, x ∈ W) (hp : DependsOn p V) :
    count W p = count V p * 2 ^ (W.countP fun x => decide (x ∉ V)) := by
  have hn : (W.filter (fun x => decide (x ∉ V)) ++ V).Nodup := by
    rw [List.nodup_append]
    refine ⟨hW.filter _, hV, fun a ha b hb e => ?_⟩
    subst e
    exact of_decide_eq_true (List.mem_filter.1 ha).2 hb
  have hpm : (W.filter (fun x => decide (x ∉ V)) ++ V).Perm W := (List.perm_ext_iff_of_nodup hn hW).2 fun x => by
    simp only [List.mem_append, List.mem_filter, decide_eq_true_eq]
    constructor
    · rintro (⟨h, _⟩ | h)
      · exact h
      · exact hs x h
    · intro h
      by_cases hx : x ∈ V
      · exact .inr hx
      · exact .inl ⟨h, hx⟩
  rw [← count_perm hpm hn, count_dontCare _ hn hp, List.countP_eq_length_filter, Nat.mul_comm]

theorem length_split {V W : List α} (hV : V.Nodup) (hW : W.Nodup) (hs : ∀ x ∈ V, x ∈ W) : (W.countP fun x => decide (x ∉ V)) = W.length - V.length := by
  have h1 := List.length_eq_countP_add_countP (fun x => decide (x ∈ V)) (l := W)
  have h2 : W.countP (fun x => decide (x ∈ V)) = V.length := by
    rw [List.countP_eq_length_filter]
    refine List.Perm.length_eq ((List.perm_ext_iff_of_nodup (hW.filter _) hV).2 fun x => ?_)
    simp only [List.mem_filter, decide_eq_true_eq]
    exact ⟨fun h => h.2, fun h => ⟨hs x h, h⟩⟩
  have h3 : W.countP (fun x => decide (x ∉ V)) = W.countP (fun x => !decide (x ∈ V)) := List.countP_congr fun x _ => by simp
  rw [h3]
  have h4 : W.countP (fun x => !decide (x ∈ V)) = W.countP (fun a => decide (¬(decide (a ∈ V)) = true)) := List.countP_congr fun x _ => by simp
  omega

theorem count_or {V : List α} {p q : (α → Bool) → Bool} (h : ∀ v, p v = true → q v = false) : count V (fun v => p v || q v) = count V p + count V q := by
  unfold count
  induction V.sublists' with
  | nil => rfl
  | cons S l ih =>
    rw [List.countP_cons, List.countP_cons, List.countP_cons, ih]
    have hx := h (asgOf S)
    cases hp : p (asgOf S) <;> cases hq : q (asgOf S) <;> simp_all <;> omega

/-! ## the counter -/

theorem count_lit (l : Lit α) : count [l.var] (fun v => (Fm.lit l).eval v) = 1 := by
  rw [count_cons (by simp), count_nil, count_nil]
  cases l with | mk x p => cases p <;> simp [setVal, Lit.eval]

/-- conjunctions -/
theorem mul_spec : ∀ {fs : List (Fm α)}, (∀ f ∈ fs, plain countNode f = some (count (varSet f) fun v => f.eval v)) → fs.Pairwise (fun f g => ∀ x ∈ f.vars, x ∉ g.vars) →
    (fs.flatMap varSet).Nodup ∧ mulAll (fs.map (plain countNode)) = some (count (fs.flatMap varSet) fun v => fs.all fun f => f.eval v)
  | [], _, _ => ⟨by simp, by simp [mulAll, count_nil]⟩
  | f :: fs, h, hd => by
    rw [List.pairwise_cons] at hd
    obtain ⟨ih1, ih2⟩ := mul_spec (fun g hg => h g (List.mem_cons_of_mem _ hg)) hd.2
    have hn : (varSet f ++ fs.flatMap varSet).Nodup := by
      rw [List.nodup_append]
      refine ⟨varSet_nodup f, ih1, fun a ha b hb e => ?_⟩
      subst e
      obtain ⟨g, hg, hb⟩ := List.mem_flatMap.1 hb
      exact hd.1 g hg a (mem_varSet.1 ha) (mem_varSet.1 hb)
    refine ⟨hn, ?_⟩
    simp only [List.map_cons, mulAll, h f List.mem_cons_self, ih2]
    rw [← count_prod hn (dep_varSet f)]
    · rfl
    · intro v w hv
      rw [Bool.eq_iff_iff, List.all_eq_true, List.all_eq_true]
      have e : ∀ g ∈ fs, g.eval v = g.eval w := fun g hg => Fm.eval_congr g fun x hx => hv x (List.mem_flatMap.2 ⟨g, hg, mem_varSet.2 hx⟩)
      exact forall₂_congr fun g hg => by rw [e g hg]

/-- disjunctions -/
theorem add_spec {W : List α} (hW : W.Nodup) : ∀ {fs : List (Fm α)}, (∀ f ∈ fs, plain countNode f = some (count (varSet f) fun v => f.eval v)) →
    fs.Pairwise (fun f g => ∀ v, f.eval v = true → g.eval v = false) → (∀ f ∈ fs, ∀ x ∈ f.vars, x ∈ W) →
    addAll W.length (fs.zip (fs.map (plain countNode))) = some (count W fun v => fs.any fun f => f.eval v)
  | [], _, _, _ => by simp [addAll, count]
  | f :: fs, h, hd, hs => by
    rw [List.pairwise_cons] at hd
    have ih := add_spec hW (fun g hg => h g (List.mem_cons_of_mem _ hg)) hd.2 (fun g hg => hs g (List.mem_cons_of_mem _ hg))
    simp only [List.map_cons, List.zip_cons_cons, addAll, h f List.mem_cons_self, ih]
    have hsf : ∀ x ∈ varSet f, x ∈ W := fun x hx => hs f List.mem_cons_self x (mem_varSet.1 hx)
    rw [← length_split (varSet_nodup f) hW hsf, ← count_superset (varSet_nodup f) hW hsf (dep_varSet f), ← count_or]
    · rfl
    · intro v hv
      rw [List.any_eq_false]
      exact fun g hg => by rw [hd.1 g hg v hv]; simp

theorem count_spec {f : Fm α} (h : DDnnf f) : plain countNode f = some (count (varSet f) fun v => f.eval v) := by
  induction h with
  | fls => simp [plain, countNode, count]
  | tru =>
    have : varSet (.tru : Fm α) = [] := rfl
    rw [this, count_nil]; simp [plain, countNode]
  | lit l => exact congrArg some (count_lit l).symm
  | @and fs _ hd ih =>
    obtain ⟨h1, h2⟩ := mul_spec ih hd
    rw [plain, plainL_eq, countNode, h2]
    have hpm : (fs.flatMap varSet).Perm (varSet (.and fs)) := (List.perm_ext_iff_of_nodup h1 (varSet_nodup _)).2 fun x => by
      simp only [mem_varSet, List.mem_flatMap, Fm.vars_and]
    rw [count_perm hpm h1]
    exact congrArg some (count_congr fun v => by rw [Fm.eval_and])
  | @or fs _ hd ih =>
    rw [plain, plainL_eq, countNode, add_spec (varSet_nodup _) ih hd fun f hf x hx => mem_varSet.2 (by rw [Fm.vars_or]; exact List.mem_flatMap.2 ⟨f, hf, hx⟩)]
    exact congrArg some (count_congr fun v => by rw [Fm.eval_or])

/-- C26: `ModelCount` of a deterministic decomposable formula is the number of its models over the given variables, whatever was counted before.  Missing: that the
compiler yields such a formula with the models of its input. -/
theorem C26_count_partial {c : Cache α (Option Nat)} (hc : Reach (memo countNode) c) {f : Fm α} (h : DDnnf f) {orig : List α} (ho : orig.Nodup) (hs : ∀ x ∈ f.vars, x ∈ orig) :
    (modelCount c orig f).1 = some (count orig fun v => f.eval v) := by
  show (memo countNode c f).1.map _ = _
  rw [memo_eq hc, count_spec h, count_superset (varSet_nodup f) ho (fun x hx => hs x (mem_varSet.1 hx)) (dep_varSet f)]
  rfl

/-- the cache stays right, so that the theorem applies to the next call -/
theorem modelCount_reach {c : Cache α (Option Nat)} (hc : Reach (memo countNode) c) (orig : List α) (f : Fm α) : Reach (memo countNode) (modelCount c orig f).2 := .step f hc

/-! ## examples -/

/-- `(0 ∧ 1) ∨ (¬0 ∧ 2)` -/
def exD : Fm Nat := .or [.and [.lit ⟨0, true⟩, .lit ⟨1, true⟩], .and [.lit ⟨0, false⟩, .lit ⟨2, true⟩]]

example : DDnnf exD := by
  refine .or (fun f hf => ?_) (by simp [Lit.eval]; grind)
  simp only [List.mem_cons, List.not_mem_nil, or_false] at hf
  rcases hf with rfl | rfl <;> exact .and (fun g hg => by simp only [List.mem_cons, List.not_mem_nil, or_false] at hg; rcases hg with rfl | rfl <;> exact .lit _) (by decide)

example : (modelCount [] [0, 1, 2, 3] exD).1 = some 8 := by decide +kernel
example : (modelCount (modelCount [] [0, 1, 2, 3] exD).2 [0, 1, 2] exD).1 = some 4 := by decide +kernel

/-- the conditions are needed: `0 ∨ 1` is not deterministic -/
example : (modelCount [] [0, 1] (.or [.lit ⟨0, true⟩, .lit ⟨1, true⟩])).1 = some 4 ∧ count [0, 1] (fun v => (Fm.or [.lit ⟨0, true⟩, .lit ⟨1, true⟩] : Fm Nat).eval v) = 3 := by decide +kernel

end Verif.Dnnf
