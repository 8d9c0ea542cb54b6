import Verif.Bdd.Order
import Verif.NormalForm.Model
import Verif.Spec.NormalForm
import Mathlib.Order.Lattice
import Mathlib.Data.List.Induction
import Mathlib.Order.OrderDual
/-
C58: the orderings of the variables. `BFSOrder` and `DFSOrder` list the variables by their first occurrence level by level and
from left to right; `MinToMaxOrder` and `MaxToMinOrder` sort by the number of occurrences; `ForceOrder`, if it returns, returns
each variable of the formula once, but there are formulas for which it never returns.
-/
namespace Verif.Order
open Verif
variable {α : Type} [DecidableEq α]

/-! ### specification -/

/-- `ys` lists the members of `xs` once each, in the order of their first occurrences -/
structure FirstIn (xs ys : List α) : Prop where
  nodup : ys.Nodup
  mem : ∀ x, x ∈ ys ↔ x ∈ xs
  order : ys.Pairwise fun x y => xs.idxOf x < xs.idxOf y

/-- the variables of `f` that occur at depth `d`, from left to right; the variable of a negative literal is one level below it -/
def occAt : Nat → Fm α → List α
  | 0, .lit ⟨x, true⟩ => [x]
  | 1, .lit ⟨x, false⟩ => [x]
  | 0, .cc _ _ xs => xs
  | 0, .pbc _ _ ts => ts.map (·.2.var)
  | d + 1, .not f => occAt d f
  | d + 1, .impl f g => occAt d f ++ occAt d g
  | d + 1, .equiv f g => occAt d f ++ occAt d g
  | d + 1, .and fs => fs.flatMap (occAt d)
  | d + 1, .or fs => fs.flatMap (occAt d)
  | _, _ => []

/-! ### first occurrences -/

theorem firstIn_foldl (xs : List α) : FirstIn xs (xs.foldl addNew []) := by
  induction xs using List.reverseRecOn with
  | nil => exact ⟨by simp, by simp, by simp⟩
  | append_singleton xs x ih =>
    rw [List.foldl_append]
    simp only [List.foldl_cons, List.foldl_nil, addNew]
    have hidx : ∀ y ∈ xs.foldl addNew [], (xs ++ [x]).idxOf y = xs.idxOf y := fun y hy =>
      List.idxOf_append_of_mem ((ih.mem y).1 hy)
    have hord : (xs.foldl addNew []).Pairwise fun a b => (xs ++ [x]).idxOf a < (xs ++ [x]).idxOf b :=
      ih.order.imp_of_mem fun ha hb h => by rw [hidx _ ha, hidx _ hb]; exact h
    split
    · rename_i hx
      refine ⟨ih.nodup, fun y => ?_, hord⟩
      rw [ih.mem y, List.mem_append, List.mem_singleton]
      exact ⟨Or.inl, fun h => h.elim id fun h => h ▸ (ih.mem x).1 hx⟩
    · rename_i hx
      refine ⟨?_, fun y => by simp [ih.mem y], ?_⟩
      · rw [List.nodup_append]
        refine ⟨ih.nodup, by simp, ?_⟩
        intro a ha b hb hab
        rw [List.mem_singleton] at hb
        exact hx (hb ▸ hab ▸ ha)
      · rw [List.pairwise_append]
        refine ⟨hord, by simp, ?_⟩
        intro a ha b hb
        rw [List.mem_singleton] at hb
        subst hb
        rw [hidx a ha]
        have h1 : xs.idxOf a < xs.length := List.idxOf_lt_length_iff.2 ((ih.mem a).1 ha)
        have h2 : b ∉ xs := fun h => hx ((ih.mem b).2 h)
        rw [List.idxOf_append_of_notMem h2]
        omega

theorem dfsL_eq (fs : List (Fm α)) (h : ∀ f ∈ fs, ∀ acc, dfs f acc = f.vars.foldl addNew acc) :
    ∀ acc, dfsL fs acc = (fs.flatMap Fm.vars).foldl addNew acc := by
  induction fs with
  | nil => intro acc; simp [dfsL]
  | cons f fs ih =>
    intro acc
    rw [dfsL, h f (by simp), ih (fun g hg => h g (by simp [hg])), List.flatMap_cons, List.foldl_append]

theorem dfs_eq (f : Fm α) : ∀ acc, dfs f acc = f.vars.foldl addNew acc := by
  induction f using Fm.ind with
  | hf => intro acc; simp [dfs]
  | ht => intro acc; simp [dfs]
  | hl l => intro acc; simp [dfs]
  | hn f ih => intro acc; simp [dfs, ih]
  | ha fs ih => intro acc; rw [dfs, Fm.vars_and]; exact dfsL_eq fs ih acc
  | ho fs ih => intro acc; rw [dfs, Fm.vars_or]; exact dfsL_eq fs ih acc
  | hi f g ih1 ih2 => intro acc; rw [dfs, ih1, ih2, Fm.vars_impl, List.foldl_append]
  | he f g ih1 ih2 => intro acc; rw [dfs, ih1, ih2, Fm.vars_equiv, List.foldl_append]
  | hc c k xs => intro acc; simp [dfs]
  | hp c k ts => intro acc; simp [dfs]

/-- C58: `DFSOrder` lists the variables in the order of their first occurrences from left to right -/
theorem C58_dfs (f : Fm α) : FirstIn f.vars (dfsOrder f) := by
  rw [dfsOrder, dfs_eq]
  exact firstIn_foldl _

/-! ### BFS -/

def visits : Nat → List (Fm α) → List α
  | 0, _ => []
  | _ + 1, [] => []
  | n + 1, f :: q => here f ++ visits n (q ++ kids f)

theorem bfsLoop_eq : ∀ n (q : List (Fm α)) acc, bfsLoop n q acc = (visits n q).foldl addNew acc
  | 0, q, acc => by simp [bfsLoop, visits]
  | n + 1, [], acc => by simp [bfsLoop, visits]
  | n + 1, f :: q, acc => by rw [bfsLoop, visits, List.foldl_append, bfsLoop_eq n]

theorem workL_append (a b : List (Fm α)) : workL (a ++ b) = workL a + workL b := by
  induction a with
  | nil => simp [workL]
  | cons f a ih => simp only [List.cons_append, workL, ih]; omega

theorem work_kids (f : Fm α) : work f = workL (kids f) + 1 := by
  cases f with
  | lit l => rcases l with ⟨x, s⟩; cases s <;> simp [work, kids, workL]
  | _ => simp [work, kids, workL]

theorem occAt_zero (f : Fm α) : occAt 0 f = here f := by
  cases f with
  | lit l => rcases l with ⟨x, s⟩; cases s <;> simp [occAt, here]
  | _ => simp [occAt, here]

theorem occAt_succ (d : Nat) (f : Fm α) : occAt (d + 1) f = (kids f).flatMap (occAt d) := by
  cases f with
  | lit l =>
    rcases l with ⟨x, s⟩
    cases s <;> rcases d with _ | d <;> simp [occAt, kids]
  | _ => simp [occAt, kids]

theorem visits_split : ∀ (a b : List (Fm α)) n, workL (a ++ b) ≤ n →
    ∃ m, workL (b ++ a.flatMap kids) ≤ m ∧ visits n (a ++ b) = a.flatMap here ++ visits m (b ++ a.flatMap kids)
  | [], b, n, h => ⟨n, by simpa using h, by simp⟩
  | f :: a, b, n, h => by
    have hw := work_kids f
    simp only [List.cons_append, workL] at h
    obtain ⟨n, rfl⟩ : ∃ k, n = k + 1 := ⟨n - 1, by omega⟩
    obtain ⟨m, hm, he⟩ := visits_split a (b ++ kids f) n (by
      rw [← List.append_assoc, workL_append]; omega)
    refine ⟨m, ?_, ?_⟩
    · simpa [List.append_assoc] using hm
    · rw [List.cons_append, visits, List.append_assoc, he]
      simp [List.append_assoc]

theorem workL_kids (a : List (Fm α)) (ha : a ≠ []) : workL (a.flatMap kids) < workL a := by
  have key : ∀ a : List (Fm α), workL (a.flatMap kids) + a.length = workL a := by
    intro a
    induction a with
    | nil => simp [workL]
    | cons f a ih =>
      rw [List.flatMap_cons, workL_append, workL, work_kids f, List.length_cons]
      omega
  have := key a
  have : 0 < a.length := List.length_pos_of_ne_nil ha
  omega

theorem visits_levels : ∀ (D : Nat) (a : List (Fm α)) n, workL a ≤ n → workL a ≤ D →
    visits n a = (List.range D).flatMap fun d => a.flatMap (occAt d)
  | D, [], n, _, _ => by cases n <;> simp [visits]
  | 0, f :: a, n, _, h => by
    have := work_kids f
    simp only [workL] at h
    omega
  | D + 1, f :: a, n, hn, hD => by
    obtain ⟨m, hm, he⟩ := visits_split (f :: a) [] n (by simpa using hn)
    have hlt := workL_kids (f :: a) (by simp)
    rw [List.append_nil] at he
    rw [List.nil_append] at hm he
    rw [he, visits_levels D _ m hm (by omega), List.range_succ_eq_map,
      List.flatMap_cons (f := fun d => (f :: a).flatMap (occAt d)), List.flatMap_map]
    congr 1
    · exact congrArg (fun g => (f :: a).flatMap g) (funext fun g => (occAt_zero g).symm)
    · refine congrArg (fun g => (List.range D).flatMap g) (funext fun d => ?_)
      rw [List.flatMap_assoc]
      exact congrArg (fun g => (f :: a).flatMap g) (funext fun g => (occAt_succ d g).symm)

/-- the depth of a formula, counting the level of the variable below a negative literal -/
theorem occAt_mem (f : Fm α) (x : α) : x ∈ f.vars ↔ ∃ d, d < work f ∧ x ∈ occAt d f := by
  have list : ∀ fs : List (Fm α), (∀ f ∈ fs, x ∈ f.vars ↔ ∃ d, d < work f ∧ x ∈ occAt d f) →
      (x ∈ fs.flatMap Fm.vars ↔ ∃ d, d < workL fs ∧ x ∈ fs.flatMap (occAt d)) := by
    intro fs
    induction fs with
    | nil => simp
    | cons f fs ih =>
      intro h
      have ih := ih fun g hg => h g (by simp [hg])
      have hf := h f (by simp)
      simp only [List.flatMap_cons, List.mem_append, workL, hf, ih]
      constructor
      · rintro (⟨d, hd, hx⟩ | ⟨d, hd, hx⟩)
        · exact ⟨d, by omega, Or.inl hx⟩
        · exact ⟨d, by omega, Or.inr hx⟩
      · rintro ⟨d, hd, hx | hx⟩
        · exact Or.inl (by
            have := visits_levels (workL [f]) [f] (workL [f]) (Nat.le_refl _) (Nat.le_refl _)
            have h2 := visits_levels (work f + workL fs) [f] (workL [f]) (Nat.le_refl _) (by simp [workL])
            have hm : x ∈ (List.range (work f + workL fs)).flatMap fun d => [f].flatMap (occAt d) :=
              List.mem_flatMap.2 ⟨d, by simpa using hd, by simpa using hx⟩
            rw [← h2, this] at hm
            obtain ⟨e, he, hx⟩ := List.mem_flatMap.1 hm
            exact ⟨e, by simpa [workL] using he, by simpa using hx⟩)
        · exact Or.inr (by
            have := visits_levels (workL fs) fs (workL fs) (Nat.le_refl _) (Nat.le_refl _)
            have h2 := visits_levels (work f + workL fs) fs (workL fs) (Nat.le_refl _) (by omega)
            have hm : x ∈ (List.range (work f + workL fs)).flatMap fun d => fs.flatMap (occAt d) :=
              List.mem_flatMap.2 ⟨d, by simpa using hd, by simpa using hx⟩
            rw [← h2, this] at hm
            obtain ⟨e, he, hx⟩ := List.mem_flatMap.1 hm
            exact ⟨e, by simpa using he, by simpa using hx⟩)
  have step : ∀ (f : Fm α) (vs : List α), here f = [] →
      (x ∈ vs ↔ ∃ d, d < workL (kids f) ∧ x ∈ (kids f).flatMap (occAt d)) →
      (x ∈ vs ↔ ∃ d, d < work f ∧ x ∈ occAt d f) := by
    intro f vs h0 h
    rw [h]
    constructor
    · rintro ⟨d, hd, hx⟩
      exact ⟨d + 1, by rw [work_kids]; omega, by rw [occAt_succ]; exact hx⟩
    · rintro ⟨d, hd, hx⟩
      rcases d with _ | d
      · rw [occAt_zero, h0] at hx; simp at hx
      · exact ⟨d, by rw [work_kids] at hd; omega, by rw [occAt_succ] at hx; exact hx⟩
  induction f using Fm.ind with
  | hf => simp [work, occAt]
  | ht => simp [work, occAt]
  | hl l =>
    rcases l with ⟨y, s⟩
    cases s
    · simp only [Fm.vars_lit, List.mem_singleton, work]
      constructor
      · intro h; exact ⟨1, by simp, by simp [occAt, h]⟩
      · rintro ⟨d, hd, hx⟩
        rcases d with _ | _ | d <;> simp [occAt] at hx
        exact hx
    · simp only [Fm.vars_lit, List.mem_singleton, work]
      constructor
      · intro h; exact ⟨0, by simp, by simp [occAt, h]⟩
      · rintro ⟨d, hd, hx⟩
        rcases d with _ | d <;> simp [occAt] at hx
        exact hx
  | hn f ih => exact step _ _ rfl (by simpa [kids] using list [f] (by simpa using ih))
  | ha fs ih => exact step _ _ rfl (by simpa [kids] using list fs ih)
  | ho fs ih => exact step _ _ rfl (by simpa [kids] using list fs ih)
  | hi f g ih1 ih2 => exact step _ _ rfl (by simpa [kids] using list [f, g] (by simp [ih1, ih2]))
  | he f g ih1 ih2 => exact step _ _ rfl (by simpa [kids] using list [f, g] (by simp [ih1, ih2]))
  | hc c k xs =>
    simp only [Fm.vars_cc, work]
    constructor
    · intro h; exact ⟨0, by simp, by simpa [occAt] using h⟩
    · rintro ⟨d, hd, hx⟩
      obtain rfl : d = 0 := by omega
      simpa [occAt] using hx
  | hp c k ts =>
    simp only [Fm.vars_pbc, work]
    constructor
    · intro h; exact ⟨0, by simp, by simpa [occAt] using h⟩
    · rintro ⟨d, hd, hx⟩
      obtain rfl : d = 0 := by omega
      simpa [occAt] using hx

/-- C58: `BFSOrder` lists the variables of the formula level by level, each level from left to right, each variable at its first
occurrence; `D` is any number of levels that is large enough -/
theorem C58_bfs (f : Fm α) : (∀ x, x ∈ bfsOrder f ↔ x ∈ f.vars) ∧
    ∃ D0, ∀ D, D0 ≤ D → FirstIn ((List.range D).flatMap fun d => occAt d f) (bfsOrder f) := by
  have key : ∀ D, work f ≤ D → FirstIn ((List.range D).flatMap fun d => occAt d f) (bfsOrder f) := by
    intro D hD
    have hl : workL [f] = work f := by simp [workL]
    have h := visits_levels D [f] (work f) (by omega) (by omega)
    have h1 : (fun d => [f].flatMap (occAt d)) = fun d => occAt d f := funext fun d => by simp
    rw [h1] at h
    rw [bfsOrder, bfsLoop_eq, h]
    exact firstIn_foldl _
  refine ⟨fun x => ?_, work f, key⟩
  rw [(key _ (Nat.le_refl _)).mem, occAt_mem]
  simp [List.mem_flatMap]

/-! ### numbers of occurrences -/

theorem foldl_bump (xs : List α) : ∀ (p : α → Nat) x, xs.foldl bump p x = p x + xs.count x := by
  induction xs with
  | nil => intro p x; simp
  | cons y xs ih =>
    intro p x
    rw [List.foldl_cons, ih, bump, List.count_cons]
    by_cases h : x = y
    · subst h; simp; omega
    · have h' : (y == x) = false := by simpa using fun e => h e.symm
      simp [h, h']

theorem profileRecL_eq (fs : List (Fm α)) (h : ∀ f ∈ fs, ∀ p, profileRec f p = f.vars.foldl bump p) :
    ∀ p, profileRecL fs p = (fs.flatMap Fm.vars).foldl bump p := by
  induction fs with
  | nil => intro p; simp [profileRecL]
  | cons f fs ih =>
    intro p
    rw [profileRecL, h f (by simp), ih (fun g hg => h g (by simp [hg])), List.flatMap_cons, List.foldl_append]

theorem profileRec_eq (f : Fm α) : ∀ p, profileRec f p = f.vars.foldl bump p := by
  induction f using Fm.ind with
  | hf => intro p; simp [profileRec]
  | ht => intro p; simp [profileRec]
  | hl l => intro p; simp [profileRec]
  | hn f ih => intro p; simp [profileRec, ih]
  | ha fs ih => intro p; rw [profileRec, Fm.vars_and]; exact profileRecL_eq fs ih p
  | ho fs ih => intro p; rw [profileRec, Fm.vars_or]; exact profileRecL_eq fs ih p
  | hi f g ih1 ih2 => intro p; rw [profileRec, ih1, ih2, Fm.vars_impl, List.foldl_append]
  | he f g ih1 ih2 => intro p; rw [profileRec, ih1, ih2, Fm.vars_equiv, List.foldl_append]
  | hc c k xs => intro p; simp [profileRec]
  | hp c k ts => intro p; simp [profileRec]

/-- C58: `VariableProfile` counts the occurrences -/
theorem C58_profile (f : Fm α) (x : α) : profile f x = f.vars.count x := by
  rw [profile, profileRec_eq, foldl_bump]
  simp

/-! ### sorting -/

theorem insR_perm {β : Type} (lt : β → β → Bool) (ys : List β) (x : β) : (insR lt ys x).Perm (ys ++ [x]) := by
  rw [insR]
  refine List.perm_middle.trans (List.Perm.trans ?_ (List.perm_append_singleton x ys).symm)
  refine List.Perm.cons x ?_
  rw [← List.reverse_append, List.takeWhile_append_dropWhile, List.reverse_reverse]

theorem foldl_insR_perm {β : Type} (lt : β → β → Bool) (xs : List β) : (xs.foldl (insR lt) []).Perm xs := by
  induction xs using List.reverseRecOn with
  | nil => simp
  | append_singleton xs x ih =>
    rw [List.foldl_append]
    exact (insR_perm lt _ x).trans (ih.append_right [x])

theorem goSort_perm {β : Type} (big : List β → List β) (hb : ∀ xs, (big xs).Perm xs) (lt : β → β → Bool) (xs : List β) :
    (goSort big lt xs).Perm xs := by
  rw [goSort]
  split
  · exact foldl_insR_perm lt xs
  · exact hb xs

/-- the insertion sort sorts and is stable -/
theorem foldl_insR_sorted {β κ : Type} [LinearOrder κ] (key : β → κ) (lt : β → β → Bool)
    (hlt : ∀ x y, lt x y = true ↔ key x < key y) (R : β → β → Prop) (xs : List β) (hR : xs.Pairwise R) :
    (xs.foldl (insR lt) []).Pairwise fun x y => key x < key y ∨ key x = key y ∧ R x y := by
  induction xs using List.reverseRecOn with
  | nil => simp
  | append_singleton xs x ih =>
    rw [List.pairwise_append] at hR
    have ih := ih hR.1
    have hx : ∀ y ∈ xs.foldl (insR lt) [], R y x := fun y hy =>
      hR.2.2 y ((foldl_insR_perm lt xs).mem_iff.1 hy) x (by simp)
    rw [List.foldl_append, List.foldl_cons, List.foldl_nil]
    generalize hys : xs.foldl (insR lt) [] = ys at ih hx
    rw [insR]
    have hsplit : ys = (ys.reverse.dropWhile (lt x)).reverse ++ (ys.reverse.takeWhile (lt x)).reverse := by
      rw [← List.reverse_append, List.takeWhile_append_dropWhile, List.reverse_reverse]
    generalize hA : (ys.reverse.dropWhile (lt x)).reverse = A at hsplit ⊢
    generalize hB : (ys.reverse.takeWhile (lt x)).reverse = B at hsplit ⊢
    have hBx : ∀ y ∈ B, key x < key y := by
      intro y hy
      rw [← hB, List.mem_reverse] at hy
      exact (hlt x y).1 (List.all_eq_true.1 List.all_takeWhile y hy)
    have hAx : ∀ y ∈ A, key y ≤ key x := by
      rcases List.eq_nil_or_concat A with h | ⟨A', l, h⟩
      · rw [h]; simp
      · have hl : ¬ key x < key l := by
          have h1 : ys.reverse.dropWhile (lt x) = l :: A'.reverse := by
            rw [← List.reverse_reverse (ys.reverse.dropWhile (lt x)), hA, h]
            simp
          intro hc
          have h2 := List.head?_dropWhile_not (lt x) ys.reverse
          rw [h1] at h2
          simp only [List.head?_cons] at h2
          rw [(hlt x l).2 hc] at h2
          exact absurd h2 (by simp)
        intro y hy
        rw [hsplit, List.pairwise_append, h] at ih
        have h3 := ih.1
        rw [List.concat_eq_append, List.pairwise_append] at h3
        rw [h, List.concat_eq_append, List.mem_append] at hy
        rcases hy with hy | hy
        · have h4 := h3.2.2 y hy l (by simp)
          rcases h4 with h4 | h4
          · exact le_trans (le_of_lt h4) (not_lt.1 hl)
          · exact h4.1.le.trans (not_lt.1 hl)
        · rw [List.mem_singleton] at hy
          rw [hy]; exact not_lt.1 hl
    rw [hsplit] at ih hx
    rw [List.pairwise_append] at ih ⊢
    refine ⟨ih.1, List.pairwise_cons.2 ⟨fun y hy => Or.inl (hBx y hy), ih.2.1⟩, ?_⟩
    intro a ha b hb
    rcases List.mem_cons.1 hb with hb | hb
    · subst hb
      rcases lt_or_eq_of_le (hAx a ha) with h | h
      · exact Or.inl h
      · exact Or.inr ⟨h, hx a (List.mem_append.2 (Or.inl ha))⟩
    · exact ih.2.2 a ha b hb

/-- C58: the two orderings by the number of occurrences list every variable of the formula once -/
theorem C58_occurrence_perm (big : List α → List α) (hb : ∀ xs, (big xs).Perm xs) (m : Bool) (f : Fm α) :
    (occurrenceOrder big m f).Nodup ∧ ∀ x, x ∈ occurrenceOrder big m f ↔ x ∈ f.vars := by
  have h := goSort_perm big hb (fun x y => if m then profile f x < profile f y else profile f x > profile f y) (dfsOrder f)
  exact ⟨h.nodup_iff.2 (C58_dfs f).nodup, fun x => h.mem_iff.trans ((C58_dfs f).mem x)⟩

/-- C58: for at most 12 variables `MinToMaxOrder` sorts by increasing number of occurrences, with ties in the order of the first
occurrences -/
theorem C58_minToMax_partial (big : List α → List α) (f : Fm α) (hn : (dfsOrder f).length ≤ 12) :
    (occurrenceOrder big true f).Pairwise fun x y => f.vars.count x < f.vars.count y ∨
      f.vars.count x = f.vars.count y ∧ f.vars.idxOf x < f.vars.idxOf y := by
  rw [occurrenceOrder, goSort, if_pos hn]
  exact foldl_insR_sorted (fun x => f.vars.count x) _ (fun x y => by simp [C58_profile]) _ _ (C58_dfs f).order

/-- C58: for at most 12 variables `MaxToMinOrder` sorts by decreasing number of occurrences, with ties in the order of the first
occurrences -/
theorem C58_maxToMin_partial (big : List α → List α) (f : Fm α) (hn : (dfsOrder f).length ≤ 12) :
    (occurrenceOrder big false f).Pairwise fun x y => f.vars.count y < f.vars.count x ∨
      f.vars.count x = f.vars.count y ∧ f.vars.idxOf x < f.vars.idxOf y := by
  rw [occurrenceOrder, goSort, if_pos hn]
  refine (foldl_insR_sorted (fun x => OrderDual.toDual (f.vars.count x)) _ (fun x y => by simp [C58_profile]) _ _
    (C58_dfs f).order).imp ?_
  intro a b h
  simpa using h

/-! ### FORCE -/

theorem forceLoop_perm (big : List α → List α → List α) (hb : ∀ l xs, (big l xs).Perm xs) (nodes : List α)
    (es : List (List α)) : ∀ n last o, forceLoop big nodes es n last = some o → o.Perm nodes
  | 0, last, o, h => by simp [forceLoop] at h
  | n + 1, last, o, h => by
    simp only [forceLoop] at h
    split at h
    · exact forceLoop_perm big hb nodes es n _ o h
    · cases h
      exact goSort_perm _ (hb last) _ _

/-- C58: if `ForceOrder` returns, the result lists the variables of the formula and of its negation normal form once each,
whatever the transformation to CNF returns -/
theorem C58_force_partial (big : List α → List α → List α) (hb : ∀ l xs, (big l xs).Perm xs) (content : List α → List α)
    (hc : ∀ xs, (content xs).Nodup ∧ ∀ x, x ∈ content xs ↔ x ∈ xs) (nnf pg : Fm α → Fm α) (n : Nat) (f : Fm α) (o : List α)
    (h : forceOrder big content nnf pg n f = some o) :
    o.Nodup ∧ ∀ x, x ∈ o ↔ x ∈ f.vars ∨ x ∈ (nnf f).vars := by
  simp only [forceOrder, Option.map_eq_some_iff] at h
  obtain ⟨o', h1, rfl⟩ := h
  have hp := forceLoop_perm big hb _ _ n _ o' h1
  have hnd : o'.Nodup := hp.nodup_iff.2 (firstIn_foldl _).nodup
  have hcm := hc (f.vars ++ (nnf f).vars)
  generalize content (f.vars ++ (nnf f).vars) = orig at hcm ⊢
  constructor
  · rw [List.nodup_append]
    refine ⟨hnd.filter _, hcm.1.filter _, ?_⟩
    intro a ha b hb hab
    simp only [List.mem_filter, decide_eq_true_eq] at ha hb
    exact hb.2 (hab ▸ ha.1)
  · intro x
    rw [← List.mem_append, ← hcm.2 x]
    simp only [List.mem_append, List.mem_filter, decide_eq_true_eq]
    constructor
    · rintro (h | h)
      · exact h.2
      · exact h.1
    · intro h
      by_cases hx : x ∈ o'
      · exact Or.inl ⟨hx, h⟩
      · exact Or.inr ⟨h, hx⟩

/-- increasing listing without repetitions -/
def natContent (xs : List Nat) : List Nat := (List.range (xs.foldl max 0 + 1)).filter (· ∈ xs)

/-- a CNF with six clauses over five variables -/
def loopCnf : Fm Nat :=
  let p (x : Nat) : Fm Nat := .lit ⟨x, true⟩
  let n (x : Nat) : Fm Nat := .lit ⟨x, false⟩
  .and [.or [p 4, p 0, p 1], .or [p 2, p 3, p 0], .or [p 0, p 3, p 1], .or [n 0, p 3, p 1], .or [p 2, p 0, p 4],
    .or [p 0, n 3, p 1]]

theorem natContent_spec (xs : List Nat) : (natContent xs).Nodup ∧ ∀ x, x ∈ natContent xs ↔ x ∈ xs := by
  have hmax : ∀ (xs : List Nat) m, m ≤ xs.foldl max m ∧ ∀ x ∈ xs, x ≤ xs.foldl max m := by
    intro xs
    induction xs with
    | nil => simp
    | cons y xs ih =>
      intro m
      have h := ih (max m y)
      refine ⟨le_trans (le_max_left m y) h.1, fun x hx => ?_⟩
      rcases List.mem_cons.1 hx with hx | hx
      · rw [hx]; exact le_trans (le_max_right m y) h.1
      · exact h.2 x hx
  refine ⟨List.nodup_range.filter _, fun x => ?_⟩
  simp only [natContent, List.mem_filter, List.mem_range, decide_eq_true_eq]
  exact ⟨fun h => h.2, fun h => ⟨Nat.lt_succ_of_le ((hmax xs 0).2 x h), h⟩⟩

theorem forceStep_small (big big' : List α → List α → List α) (nodes : List α) (hn : nodes.length ≤ 12) (es : List (List α))
    (last : List α) : forceStep big nodes es last = forceStep big' nodes es last := by
  rw [forceStep, forceStep, goSort, goSort, if_pos hn, if_pos hn]

/-- the two orderings between which the loop alternates -/
theorem loop_steps (big : List Nat → List Nat → List Nat) :
    forceStep big [0, 1, 4, 2, 3] (hypergraph natContent loopCnf).2 [4, 0, 1, 2, 3] = [4, 1, 2, 0, 3] ∧
    forceStep big [0, 1, 4, 2, 3] (hypergraph natContent loopCnf).2 [4, 1, 2, 0, 3] = [4, 0, 1, 2, 3] := by
  rw [forceStep_small big (fun _ x => x) _ (by decide), forceStep_small big (fun _ x => x) _ (by decide)]
  constructor <;> decide +kernel

theorem loop_never (big : List Nat → List Nat → List Nat) : ∀ n,
    forceLoop big [0, 1, 4, 2, 3] (hypergraph natContent loopCnf).2 n [4, 0, 1, 2, 3] = none ∧
    forceLoop big [0, 1, 4, 2, 3] (hypergraph natContent loopCnf).2 n [4, 1, 2, 0, 3] = none
  | 0 => ⟨rfl, rfl⟩
  | n + 1 => by
    obtain ⟨h1, h2⟩ := loop_never big n
    obtain ⟨s1, s2⟩ := loop_steps big
    simp only [forceLoop, s1, s2]
    exact ⟨by rw [if_pos (by decide)]; exact h2, by rw [if_pos (by decide)]; exact h1⟩

/-- the negation normal form of the looping formula is the formula itself -/
theorem loop_nnf (cons : Bool) (enc : Fm Nat → Fm Nat) : NF.nnf cons enc loopCnf true = loopCnf := by
  simp only [loopCnf, NF.nnf, NF.nnfL, if_true]
  revert cons
  decide +kernel

theorem loop_force (cons : Bool) (enc : Fm Nat → Fm Nat) (big : List Nat → List Nat → List Nat) (pg : Fm Nat → Fm Nat) (hpg : pg loopCnf = loopCnf) (n : Nat) :
    forceOrder big natContent (fun f => NF.nnf cons enc f true) pg n loopCnf = none := by
  have h1 : (hypergraph natContent loopCnf).1 = [0, 1, 4, 2, 3] := by decide +kernel
  have h2 : dfsOrder loopCnf = [4, 0, 1, 2, 3] := by decide +kernel
  simp only [forceOrder, loop_nnf, hpg, h1, h2, (loop_never big n).1, Option.map_none]

/-- C58: it is false that `ForceOrder` returns for every formula: for a CNF with five variables and six clauses the loop of `force`
alternates between two orderings for ever. (For a formula in CNF the transformation to CNF, `pg`, returns the formula itself.) -/
theorem C58_force_returns_false : ∃ f : Fm Nat, Spec.isCNF f = true ∧
    ∀ (cons : Bool) (enc : Fm Nat → Fm Nat) (big : List Nat → List Nat → List Nat) (pg : Fm Nat → Fm Nat), pg f = f →
      ∀ n, forceOrder big natContent (fun f => NF.nnf cons enc f true) pg n f = none :=
  ⟨loopCnf, by decide +kernel, fun cons enc big pg hpg n => loop_force cons enc big pg hpg n⟩

/-! ### examples -/

/-- `(¬x0 ∧ (x2 ∨ ¬x1)) ∧ x3`-like formula: the variable of the negative literal comes later with BFS -/
def exF : Fm Nat :=
  .and [.lit ⟨0, false⟩, .or [.lit ⟨2, true⟩, .not (.impl (.lit ⟨1, true⟩) (.lit ⟨2, true⟩))], .lit ⟨3, true⟩, .cc .le 1 [4, 3]]

example : dfsOrder exF = [0, 2, 1, 3, 4] ∧ bfsOrder exF = [3, 4, 0, 2, 1] := by decide +kernel
example : (List.range 5).map (fun d => occAt d exF) = [[], [3, 4, 3], [0, 2], [], [1, 2]] := by decide +kernel
example : profile exF 2 = 2 ∧ profile exF 3 = 2 ∧ profile exF 0 = 1 := by decide +kernel
example : (dfsOrder exF).length ≤ 12 ∧ occurrenceOrder id true exF = [0, 1, 4, 2, 3] ∧
    occurrenceOrder id false exF = [2, 3, 0, 1, 4] := by decide +kernel
/-- a chain of clauses: `ForceOrder` returns after a few rounds -/
example : forceOrder (fun _ x => x) natContent id id 10
    (.and [.or [.lit ⟨0, true⟩, .lit ⟨2, true⟩], .or [.lit ⟨1, true⟩, .lit ⟨3, false⟩], .or [.lit ⟨2, false⟩, .lit ⟨1, true⟩]]) =
    some [0, 2, 1, 3] := by decide +kernel
/-- rounding of a third -/
example : round53 (1 / 3) = 6004799503160661 / 18014398509481984 ∧ round53 (7 / 2) = 7 / 2 := by decide +kernel

end Verif.Order
