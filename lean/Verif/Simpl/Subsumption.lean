import Verif.Simpl.FactorOut
import Mathlib.Data.List.Perm.Subperm
/-
C36: CNF and DNF subsumption with the UB-tree (simplification/subsumption.go).
Sets of literals are lists sorted by `key`, the number of a literal (`f.Comparator` compares the handles).
-/
namespace Verif.Simpl
open Verif Verif.Tree
set_option linter.unusedSectionVars false

/-! ## the UB-tree -/
section Tree
variable {β : Type}

/-- simplification/subsumption.go:126-153 `ubnode`, `ubtree`: a forest is a `treemap` from elements to nodes; a node is its element, the set ending there
(if any), its children, and here also the next node of the map -/
inductive Forest (β : Type) where
  | nil
  | node (e : β) (fin : Option (List β)) (children rest : Forest β)

/-- `treemap.Get` -/
def Forest.get (key : β → Nat) (e : β) : Forest β → Option (Option (List β) × Forest β)
  | .nil => none
  | .node x fin ch rest => if key e = key x then some (fin, ch) else rest.get key e

/-- the set put at the end of the path -/
def finish (set es : List β) (fin : Option (List β)) : Option (List β) := if es.isEmpty then some set else fin

/-- `treemap.Get` and, for a missing element, `treemap.Put` of a new node (which keeps the order); `fin`, `down` change the node -/
def Forest.update (key : β → Nat) (e : β) (fin : Option (List β) → Option (List β)) (down : Forest β → Forest β) : Forest β → Forest β
  | .nil => .node e (fin none) (down .nil) .nil
  | .node x fin0 ch rest =>
    if key e = key x then .node x (fin fin0) (down ch) rest
    else if key e < key x then .node e (fin none) (down .nil) (.node x fin0 ch rest)
    else .node x fin0 ch (rest.update key e fin down)

/-- simplification/subsumption.go:155-172 `addSet`: follow the elements, create missing nodes, mark the last one -/
def Forest.addPath (key : β → Nat) (set : List β) : List β → Forest β → Forest β
  | [], F => F
  | e :: es, F => F.update key e (finish set es) (Forest.addPath key set es)

theorem addPath_nil {key : β → Nat} {set : List β} {F : Forest β} : Forest.addPath key set [] F = F := rfl
theorem addPath_new {key : β → Nat} {set : List β} {e : β} {es : List β} :
    Forest.addPath key set (e :: es) .nil = .node e (finish set es none) (Forest.addPath key set es .nil) .nil := rfl
theorem addPath_node {key : β → Nat} {set : List β} {e : β} {es : List β} {x : β} {fin : Option (List β)} {ch rest : Forest β} :
    Forest.addPath key set (e :: es) (.node x fin ch rest) =
      if key e = key x then .node x (finish set es fin) (Forest.addPath key set es ch) rest
      else if key e < key x then .node e (finish set es none) (Forest.addPath key set es .nil) (.node x fin ch rest)
      else .node x fin ch (Forest.addPath key set (e :: es) rest) := rfl

/-- induction along `addPath` -/
theorem addPath_induct {key : β → Nat} {motive : List β → Forest β → Prop} (case1 : ∀ F, motive [] F) (case2 : ∀ e es, motive es .nil → motive (e :: es) .nil)
    (case3 : ∀ e es x fin ch rest, key e = key x → motive es ch → motive (e :: es) (.node x fin ch rest))
    (case4 : ∀ e es x fin ch rest, ¬ key e = key x → key e < key x → motive es .nil → motive (e :: es) (.node x fin ch rest))
    (case5 : ∀ e es x fin ch rest, ¬ key e = key x → ¬ key e < key x → motive (e :: es) rest → motive (e :: es) (.node x fin ch rest)) :
    ∀ es F, motive es F := by
  intro es
  induction es with
  | nil => exact case1
  | cons e es ih =>
    intro F
    induction F with
    | nil => exact case2 e es (ih _)
    | node x fin ch rest _ ih2 =>
      by_cases h1 : key e = key x
      · exact case3 _ _ _ _ _ _ h1 (ih _)
      by_cases h2 : key e < key x
      · exact case4 _ _ _ _ _ _ h1 h2 (ih _)
      · exact case5 _ _ _ _ _ _ h1 h2 ih2

/-- simplification/subsumption.go:191-214 `firstSubsetRec` with `getAllNodesContainingElements`: the set loses its first element at each level -/
def Forest.firstSubset (key : β → Nat) : List β → Forest β → Option (List β)
  | [], _ => none
  | s :: ss, F => ((s :: ss).filterMap fun e => F.get key e).findSome? fun n =>
    match n.1 with
    | some set => some set
    | none => Forest.firstSubset key ss n.2

/-- simplification/subsumption.go:182-189 `allSets`, 227-241 `getAllEndOfPathNodes` -/
def Forest.allSets : Forest β → List (List β)
  | .nil => []
  | .node _ fin ch rest => fin.toList ++ ch.allSets ++ rest.allSets

/-! ### what the forest contains -/

/-- the path `p` ends with the set `s` -/
inductive Ends : Forest β → List β → List β → Prop
  | here {e : β} {s : List β} {ch rest : Forest β} : Ends (.node e (some s) ch rest) [e] s
  | down {e : β} {fin : Option (List β)} {ch rest : Forest β} {p s : List β} : Ends ch p s → Ends (.node e fin ch rest) (e :: p) s
  | right {e : β} {fin : Option (List β)} {ch rest : Forest β} {p s : List β} : Ends rest p s → Ends (.node e fin ch rest) p s

theorem Ends.ne_nil {F : Forest β} {p s : List β} (h : Ends F p s) : p ≠ [] := by
  induction h with
  | here => simp
  | down _ _ => simp
  | right _ ih => exact ih

theorem mem_allSets {F : Forest β} {s : List β} : s ∈ F.allSets ↔ ∃ p, Ends F p s := by
  induction F with
  | nil => simp only [Forest.allSets, List.not_mem_nil, false_iff]; rintro ⟨p, h⟩; cases h
  | node e fin ch rest ih1 ih2 =>
    rw [Forest.allSets, List.mem_append, List.mem_append, ih1, ih2]
    constructor
    · rintro ((h | ⟨p, h⟩) | ⟨p, h⟩)
      · rw [Option.mem_toList] at h; cases h; exact ⟨_, .here⟩
      · exact ⟨_, .down h⟩
      · exact ⟨_, .right h⟩
    · rintro ⟨p, h⟩
      cases h with
      | here => left; left; simp
      | down h => exact .inl (.inr ⟨_, h⟩)
      | right h => exact .inr ⟨_, h⟩

/-- all elements of a map level have a key above `b` (`treemap`s are sorted) -/
inductive Srt (key : β → Nat) : Option Nat → Forest β → Prop
  | nil {b : Option Nat} : Srt key b .nil
  | node {b : Option Nat} {e : β} {fin : Option (List β)} {ch rest : Forest β} : (∀ k, b = some k → k < key e) → Srt key none ch → Srt key (some (key e)) rest →
      Srt key b (.node e fin ch rest)

/-- one level down -/
def At : Forest β → β → Option (List β) × Forest β → Prop
  | .nil, _, _ => False
  | .node y fin ch rest, e, n => (y = e ∧ n = (fin, ch)) ∨ At rest e n

theorem at_node {y e : β} {fin : Option (List β)} {ch rest : Forest β} {n : Option (List β) × Forest β} :
    At (.node y fin ch rest) e n ↔ (y = e ∧ n = (fin, ch)) ∨ At rest e n := by rw [At]
theorem at_nil {e : β} {n : Option (List β) × Forest β} : ¬ At (.nil) e n := by rw [At]; exact id

theorem Srt.above {key : β → Nat} {F : Forest β} {b : Nat} {e : β} {n : Option (List β) × Forest β} (h : Srt key (some b) F) (ha : At F e n) : b < key e := by
  generalize hb : some b = b' at h
  induction h generalizing b with
  | nil => exact absurd ha at_nil
  | node h1 _ _ _ ih =>
    rw [at_node] at ha
    have h1 := h1 b hb.symm
    rcases ha with ⟨rfl, _⟩ | ha
    · exact h1
    · have := ih ha rfl; omega
theorem Srt.child {key : β → Nat} {F : Forest β} {b : Option Nat} {e : β} {n : Option (List β) × Forest β} (h : Srt key b F) (ha : At F e n) : Srt key none n.2 := by
  induction h with
  | nil => exact absurd ha at_nil
  | node _ h2 _ _ ih =>
    rw [at_node] at ha
    rcases ha with ⟨_, rfl⟩ | ha
    · exact h2
    · exact ih ha

theorem get_at {key : β → Nat} (hk : ∀ a b, key a = key b → a = b) {F : Forest β} {e : β} {n : Option (List β) × Forest β} (h : F.get key e = some n) : At F e n := by
  induction F with
  | nil => simp [Forest.get] at h
  | node x fin ch rest _ ih =>
    rw [Forest.get] at h
    rw [at_node]
    split at h
    · rename_i e'; cases h; exact .inl ⟨(hk _ _ e').symm, rfl⟩
    · exact .inr (ih h)
theorem at_get {key : β → Nat} {F : Forest β} {b : Option Nat} (hs : Srt key b F) {e : β} {n : Option (List β) × Forest β} (h : At F e n) : F.get key e = some n := by
  induction hs with
  | nil => exact absurd h at_nil
  | node _ _ h3 _ ih =>
    rw [at_node] at h
    rw [Forest.get]
    rcases h with ⟨rfl, rfl⟩ | h
    · rw [if_pos rfl]
    · have := h3.above h
      rw [if_neg (by omega)]
      exact ih h

theorem ends_iff {F : Forest β} {p s : List β} : Ends F p s ↔ ∃ e es n, p = e :: es ∧ At F e n ∧ ((es = [] ∧ n.1 = some s) ∨ Ends n.2 es s) := by
  induction F with
  | nil =>
    constructor
    · intro h; cases h
    · rintro ⟨_, _, _, _, h, _⟩; exact absurd h at_nil
  | node y fin ch rest _ ih =>
    constructor
    · intro h
      cases h with
      | here => exact ⟨y, [], (some s, ch), rfl, at_node.2 (.inl ⟨rfl, rfl⟩), .inl ⟨rfl, rfl⟩⟩
      | down h => exact ⟨y, _, (fin, ch), rfl, at_node.2 (.inl ⟨rfl, rfl⟩), .inr h⟩
      | right h =>
        obtain ⟨e, es, n, h1, h2, h3⟩ := ih.1 h
        exact ⟨e, es, n, h1, at_node.2 (.inr h2), h3⟩
    · rintro ⟨e, es, n, rfl, h2, h3⟩
      rcases at_node.1 h2 with ⟨rfl, rfl⟩ | h2
      · rcases h3 with ⟨rfl, h3⟩ | h3
        · simp only at h3; rw [h3]; exact .here
        · exact .down h3
      · exact .right (ih.2 ⟨e, es, n, rfl, h2, h3⟩)

/-- strictly ascending keys -/
abbrev Asc (key : β → Nat) (l : List β) : Prop := l.Pairwise fun a b => key a < key b

theorem firstSubset_sound {key : β → Nat} (hk : ∀ a b, key a = key b → a = b) : ∀ {S : List β} {F : Forest β} {s : List β}, F.firstSubset key S = some s →
    ∃ p, Ends F p s ∧ ∀ x ∈ p, x ∈ S
  | [], F, s, h => by simp [Forest.firstSubset] at h
  | a :: as, F, s, h => by
    rw [Forest.firstSubset] at h
    obtain ⟨n, hn, h⟩ := List.exists_of_findSome?_eq_some h
    obtain ⟨e, he, hg⟩ := List.mem_filterMap.1 hn
    have hat := get_at hk hg
    split at h
    · rename_i set hset
      cases h
      exact ⟨[e], ends_iff.2 ⟨e, [], n, rfl, hat, .inl ⟨rfl, hset⟩⟩, by simpa using he⟩
    · obtain ⟨p, h1, h2⟩ := firstSubset_sound hk h
      refine ⟨e :: p, ends_iff.2 ⟨e, p, n, rfl, hat, .inr h1⟩, ?_⟩
      intro x hx
      rcases List.mem_cons.1 hx with rfl | hx
      · exact he
      · exact List.mem_cons_of_mem _ (h2 x hx)

theorem firstSubset_complete {key : β → Nat} : ∀ {S : List β} {F : Forest β} {b : Option Nat}, Srt key b F → Asc key S → ∀ {p s : List β}, Ends F p s → Asc key p →
    (∀ x ∈ p, x ∈ S) → F.firstSubset key S ≠ none
  | [], F, b, _, _, p, s, h, _, hsub => by
    cases p with
    | nil => exact absurd rfl h.ne_nil
    | cons e es => exact absurd (hsub e List.mem_cons_self) (by simp)
  | a :: as, F, b, hs, hS, p, s, h, hp, hsub => by
    obtain ⟨e, es, n, rfl, hat, h3⟩ := ends_iff.1 h
    intro hnone
    rw [Forest.firstSubset] at hnone
    rw [List.findSome?_eq_none_iff] at hnone
    have hn := hnone n (List.mem_filterMap.2 ⟨e, hsub e List.mem_cons_self, at_get hs hat⟩)
    split at hn
    · cases hn
    · rename_i hnil
      rcases h3 with ⟨_, h3⟩ | h3
      · rw [hnil] at h3; cases h3
      · refine firstSubset_complete (hs.child hat) (List.Pairwise.of_cons hS) h3 (List.Pairwise.of_cons hp) (fun x hx => ?_) hn
        have h1 := hsub x (List.mem_cons_of_mem _ hx)
        have h2 : key e < key x := List.rel_of_pairwise_cons hp hx
        rcases List.mem_cons.1 h1 with rfl | h1
        · exfalso
          rcases List.mem_cons.1 (hsub e List.mem_cons_self) with rfl | h4
          · omega
          · have := List.rel_of_pairwise_cons hS h4; omega
        · exact h1

theorem srt_weaken {key : β → Nat} {F : Forest β} {b : Option Nat} (h : Srt key b F) {c : Option Nat} (hc : ∀ e n, At F e n → ∀ k, c = some k → k < key e) : Srt key c F := by
  cases h with
  | nil => exact .nil
  | node h1 h2 h3 => exact .node (fun k hk => hc _ _ (at_node.2 (.inl ⟨rfl, rfl⟩)) k hk) h2 h3

theorem addPath_srt {key : β → Nat} {set : List β} : ∀ (es : List β) (F : Forest β) (b : Option Nat), Srt key b F → (∀ e ∈ es.head?, ∀ k, b = some k → k < key e) →
    Srt key b (Forest.addPath key set es F) := by
  intro es F
  induction es, F using addPath_induct (key := key) with
  | case1 F => intro b h _; rw [addPath_nil]; exact h
  | case2 e es ih =>
    intro b _ hb
    rw [addPath_new]
    exact .node (hb e (by simp)) (ih none .nil (by simp)) .nil
  | case3 e es x fin ch rest hk ih =>
    intro b h hb
    rw [addPath_node, if_pos hk]
    cases h with
    | node h1 h2 h3 => exact .node h1 (ih none h2 (by simp)) h3
  | case4 e es x fin ch rest hk hl ih =>
    intro b h hb
    rw [addPath_node, if_neg hk, if_pos hl]
    cases h with
    | node h1 h2 h3 => exact .node (hb e (by simp)) (ih none .nil (by simp)) (.node (fun k hk => by cases hk; exact hl) h2 h3)
  | case5 e es x fin ch rest hk hl ih =>
    intro b h hb
    rw [addPath_node, if_neg hk, if_neg hl]
    cases h with
    | node h1 h2 h3 =>
      refine .node h1 h2 (ih _ h3 fun y hy k hk => ?_)
      cases hk; simp at hy; subst hy; omega

theorem ends_single_none {e : β} {ch rest : Forest β} {fin : Option (List β)} {p s : List β} :
    Ends (.node e fin ch rest) p s ↔ (p = [e] ∧ fin = some s) ∨ (∃ q, p = e :: q ∧ Ends ch q s) ∨ Ends rest p s := by
  constructor
  · intro h
    cases h with
    | here => exact .inl ⟨rfl, rfl⟩
    | down h => exact .inr (.inl ⟨_, rfl, h⟩)
    | right h => exact .inr (.inr h)
  · rintro (⟨rfl, rfl⟩ | ⟨q, rfl, h⟩ | h)
    · exact .here
    · exact .down h
    · exact .right h

/-- after adding a set along its path the forest has this end in addition -/
theorem addPath_ends {key : β → Nat} (hk : ∀ a b, key a = key b → a = b) {set : List β} : ∀ (es : List β) (F : Forest β) (b : Option Nat), Srt key b F → ∀ p s,
    Ends (Forest.addPath key set es F) p s ↔ (p = es ∧ es ≠ [] ∧ s = set) ∨ (Ends F p s ∧ p ≠ es) := by
  intro es F
  induction es, F using addPath_induct (key := key) with
  | case1 F =>
    intro b _ p s; rw [addPath_nil]
    constructor
    · intro h; exact .inr ⟨h, h.ne_nil⟩
    · rintro (⟨_, h, _⟩ | ⟨h, _⟩)
      · exact absurd rfl h
      · exact h
  | case2 e es ih =>
    intro b _ p s
    rw [addPath_new, ends_single_none]
    have hn : ∀ p s, ¬ Ends (.nil : Forest β) p s := fun p s h => by cases h
    simp only [ih none .nil, hn, or_false, false_and]
    unfold finish
    constructor
    · rintro (⟨rfl, h⟩ | ⟨q, rfl, rfl, h, rfl⟩)
      · split at h
        · rename_i hes; rw [List.isEmpty_iff] at hes; cases h; exact ⟨by rw [hes], by simp, rfl⟩
        · cases h
      · exact ⟨rfl, by simp, rfl⟩
    · rintro ⟨rfl, _, rfl⟩
      cases es with
      | nil => left; simp
      | cons y ys => right; exact ⟨_, rfl, rfl, by simp, rfl⟩
  | case3 e es x fin ch rest he ih =>
    intro b h p s
    have hex := hk _ _ he
    subst hex
    rw [addPath_node, if_pos he, ends_single_none, ends_single_none]
    cases h with
    | node h1 h2 h3 =>
    simp only [ih none h2]
    have hrest : Ends rest p s → p ≠ e :: es := by
      intro hr hp
      obtain ⟨e', es', n, e1, hat, _⟩ := ends_iff.1 hr
      rw [hp] at e1; cases e1
      have := h3.above hat; omega
    unfold finish
    cases es with
    | nil =>
      simp only [List.isEmpty_nil, if_true]
      constructor
      · rintro (⟨rfl, h⟩ | ⟨q, rfl, (⟨_, h, _⟩ | ⟨h, hq⟩)⟩ | h)
        · cases h; exact .inl ⟨rfl, by simp, rfl⟩
        · exact absurd rfl h
        · exact .inr ⟨.inr (.inl ⟨q, rfl, h⟩), by simpa using hq⟩
        · exact .inr ⟨.inr (.inr h), hrest h⟩
      · rintro (⟨rfl, _, rfl⟩ | ⟨(⟨rfl, h⟩ | ⟨q, rfl, h⟩ | h), hp⟩)
        · exact .inl ⟨rfl, rfl⟩
        · exact absurd rfl hp
        · exact .inr (.inl ⟨q, rfl, .inr ⟨h, by simpa using hp⟩⟩)
        · exact .inr (.inr h)
    | cons y ys =>
      simp only [List.isEmpty_cons, Bool.false_eq_true, if_false]
      constructor
      · rintro (⟨rfl, h⟩ | ⟨q, rfl, (⟨rfl, h, rfl⟩ | ⟨h, hq⟩)⟩ | h)
        · exact .inr ⟨.inl ⟨rfl, h⟩, by simp⟩
        · exact .inl ⟨rfl, by simp, rfl⟩
        · exact .inr ⟨.inr (.inl ⟨q, rfl, h⟩), by simpa using hq⟩
        · exact .inr ⟨.inr (.inr h), hrest h⟩
      · rintro (⟨rfl, _, rfl⟩ | ⟨(⟨rfl, h⟩ | ⟨q, rfl, h⟩ | h), hp⟩)
        · exact .inr (.inl ⟨_, rfl, .inl ⟨rfl, by simp, rfl⟩⟩)
        · exact .inl ⟨rfl, h⟩
        · exact .inr (.inl ⟨q, rfl, .inr ⟨h, by simpa using hp⟩⟩)
        · exact .inr (.inr h)
  | case4 e es x fin ch rest he hl ih =>
    intro b h p s
    rw [addPath_node, if_neg he, if_pos hl, ends_single_none]
    have hn : ∀ p s, ¬ Ends (.nil : Forest β) p s := fun p s h => by cases h
    simp only [ih none .nil, hn, or_false, false_and]
    have hold : Ends (.node x fin ch rest) p s → p ≠ e :: es := by
      intro hr hp
      obtain ⟨e', es', n, e1, hat, _⟩ := ends_iff.1 hr
      rw [hp] at e1; cases e1
      rcases at_node.1 hat with ⟨rfl, _⟩ | hat
      · exact he rfl
      · cases h with | node _ _ h3 => have := h3.above hat; omega
    unfold finish
    constructor
    · rintro (⟨rfl, h⟩ | ⟨q, rfl, rfl, h, rfl⟩ | h)
      · split at h
        · rename_i hes; rw [List.isEmpty_iff] at hes; cases h; exact .inl ⟨by rw [hes], by simp, rfl⟩
        · cases h
      · exact .inl ⟨rfl, by simp, rfl⟩
      · exact .inr ⟨h, hold h⟩
    · rintro (⟨rfl, _, rfl⟩ | ⟨h, _⟩)
      · cases es with
        | nil => left; simp
        | cons y ys => right; left; exact ⟨_, rfl, rfl, by simp, rfl⟩
      · exact .inr (.inr h)
  | case5 e es x fin ch rest he hl ih =>
    intro b h p s
    rw [addPath_node, if_neg he, if_neg hl, ends_single_none, ends_single_none]
    cases h with
    | node h1 h2 h3 =>
    rw [ih _ h3]
    have hne : ∀ q, x :: q ≠ e :: es := fun q hq => he (by cases hq; rfl)
    constructor
    · rintro (⟨rfl, h⟩ | ⟨q, rfl, h⟩ | (h | ⟨h, hp⟩))
      · exact .inr ⟨.inl ⟨rfl, h⟩, hne []⟩
      · exact .inr ⟨.inr (.inl ⟨q, rfl, h⟩), hne q⟩
      · exact .inl h
      · exact .inr ⟨.inr (.inr h), hp⟩
    · rintro (h | ⟨(⟨rfl, h⟩ | ⟨q, rfl, h⟩ | h), hp⟩)
      · exact .inr (.inr (.inl h))
      · exact .inl ⟨rfl, h⟩
      · exact .inr (.inl ⟨q, rfl, h⟩)
      · exact .inr (.inr (.inr ⟨h, hp⟩))

end Tree

/-! ## the simplifier -/
variable {α : Type} [DecidableEq α]

/-- put into a sorted set (`treeset.Add`) -/
def insertKey (key : Lit α → Nat) (l : Lit α) : List (Lit α) → List (Lit α)
  | [] => [l]
  | m :: ms => if key l < key m then l :: m :: ms else if key l = key m then m :: ms else m :: insertKey key l ms

/-- `f.Literals` of a literal, clause or minterm as a sorted set: formula/set.go:254-290, simplification/subsumption.go:243-249 `convertSet` -/
def termLits : Fm α → List (Lit α)
  | .lit l => [l]
  | .and fs => fs.filterMap fun f => match f with | .lit l => some l | _ => none
  | .or fs => fs.filterMap fun f => match f with | .lit l => some l | _ => none
  | _ => []
def termSet (key : Lit α → Nat) (f : Fm α) : List (Lit α) := (termLits f).foldr (insertKey key) []

/-- the sets in the order of the loop simplification/subsumption.go:94-103, 109-110: by size (a `treemap`), then as added -/
def bySize (sets : List (List (Lit α))) : List (List (Lit α)) :=
  (List.range ((sets.map List.length).foldr max 0 + 1)).flatMap fun n => sets.filter fun s => s.length = n

/-- variables of the loop: the tree, the number of sets added, whether an answer of the handler was no -/
structure USt (α : Type) where
  tree : Forest (Lit α)
  added : Nat
  stop : Bool

/-- simplification/subsumption.go:111-119, with 174-180 `firstSubset`; `go n` is the answer of the handler to its `n`-th question -/
def addIfNew (key : Lit α → Nat) (go : Nat → Bool) (u : USt α) (set : List (Lit α)) : USt α :=
  if (u.tree.firstSubset key set).isSome then u
  else ⟨u.tree.addPath key set set, u.added + 1, u.stop || !go (u.added + 1)⟩

/-- the outcome of a call -/
inductive SubRes (α : Type)
  | error
  | canceled
  | ok (f : Fm α)

/-- simplification/subsumption.go:35-50, 67-82: `isNF` the test of the normal form, `d` whether the outer operator is a conjunction -/
def subsume (cons d : Bool) (key : Lit α → Nat) (go : Nat → Bool) (isNF : Fm α → Bool) (f : Fm α) : SubRes α :=
  if !isNF f then .error
  else match opsOf d f with
    | none => .ok f
    | some ops =>
      if !go 0 then .canceled
      else
        let u := (bySize (ops.map (termSet key))).foldl (addIfNew key go) ⟨.nil, 0, false⟩
        if u.stop then .canceled
        else .ok (nary cons d (u.tree.allSets.map fun s => nary cons (!d) (s.map .lit)))

/-- simplification/subsumption.go:35-50 `CNFSubsumptionWithHandler` -/
def cnfSubsumption (cons : Bool) (key : Lit α → Nat) (go : Nat → Bool) (f : Fm α) : SubRes α := subsume cons true key go Spec.isCNF f
/-- simplification/subsumption.go:67-82 `DNFSubsumptionWithHandler` -/
def dnfSubsumption (cons : Bool) (key : Lit α → Nat) (go : Nat → Bool) (f : Fm α) : SubRes α := subsume cons false key go Spec.isDNF f

/-! ### correctness -/

theorem insertKey_spec {key : Lit α → Nat} (hk : ∀ a b, key a = key b → a = b) (l : Lit α) : ∀ {ms : List (Lit α)}, Asc key ms →
    Asc key (insertKey key l ms) ∧ ∀ x, x ∈ insertKey key l ms ↔ x = l ∨ x ∈ ms
  | [], _ => by simp [insertKey]
  | m :: ms, h => by
    rw [insertKey]
    split
    · rename_i hl
      refine ⟨List.pairwise_cons.2 ⟨fun x hx => ?_, h⟩, fun x => by simp⟩
      rcases List.mem_cons.1 hx with rfl | hx
      · exact hl
      · have := List.rel_of_pairwise_cons h hx; omega
    split
    · rename_i he
      have := hk _ _ he
      subst this
      exact ⟨h, fun x => by simp⟩
    · rename_i h1 h2
      obtain ⟨k1, k2⟩ := insertKey_spec hk l (List.Pairwise.of_cons h)
      refine ⟨List.pairwise_cons.2 ⟨fun x hx => ?_, k1⟩, fun x => ?_⟩
      · rcases (k2 x).1 hx with rfl | hx
        · omega
        · exact List.rel_of_pairwise_cons h hx
      · rw [List.mem_cons, k2, List.mem_cons]; tauto

theorem termSet_spec {key : Lit α → Nat} (hk : ∀ a b, key a = key b → a = b) (f : Fm α) :
    Asc key (termSet key f) ∧ ∀ x, x ∈ termSet key f ↔ x ∈ termLits f := by
  unfold termSet
  induction termLits f with
  | nil => simp
  | cons l ls ih =>
    rw [List.foldr_cons]
    obtain ⟨h1, h2⟩ := insertKey_spec hk l ih.1
    exact ⟨h1, fun x => by rw [h2, ih.2, List.mem_cons]⟩

theorem le_foldr_max : ∀ {l : List Nat} {n : Nat}, n ∈ l → n ≤ l.foldr max 0
  | a :: l, n, h => by
    rw [List.foldr_cons]
    rcases List.mem_cons.1 h with rfl | h
    · exact Nat.le_max_left _ _
    · exact Nat.le_trans (le_foldr_max h) (Nat.le_max_right _ _)
theorem mem_bySize {sets : List (List (Lit α))} {s : List (Lit α)} : s ∈ bySize sets ↔ s ∈ sets := by
  unfold bySize
  simp only [List.mem_flatMap, List.mem_range, List.mem_filter, decide_eq_true_eq]
  constructor
  · rintro ⟨_, _, h, _⟩; exact h
  · intro h
    exact ⟨s.length, Nat.lt_succ_of_le (le_foldr_max (List.mem_map.2 ⟨s, h, rfl⟩)), h, rfl⟩
theorem bySize_sorted (sets : List (List (Lit α))) : (bySize sets).Pairwise fun s t => s.length ≤ t.length := by
  unfold bySize
  rw [List.pairwise_flatMap]
  constructor
  · intro n _
    refine List.Pairwise.imp_of_mem (R := fun _ _ => True) ?_ (List.pairwise_of_forall fun _ _ => trivial)
    intro s t hs ht _
    simp only [List.mem_filter, decide_eq_true_eq] at hs ht
    omega
  · refine List.Pairwise.imp ?_ List.pairwise_lt_range
    intro a b hab s hs t ht
    simp only [List.mem_filter, decide_eq_true_eq] at hs ht
    omega

/-- what the tree holds after the sets `done` -/
structure Held (key : Lit α → Nat) (done : List (List (Lit α))) (F : Forest (Lit α)) : Prop where
  srt : Srt key none F
  ends : ∀ p s, Ends F p s → p = s ∧ s ∈ done
  covers : ∀ s ∈ done, ∃ t, Ends F t t ∧ t ⊆ s
  minimal : ∀ s t, Ends F s s → Ends F t t → s ⊆ t → s = t

theorem asc_nodup {key : Lit α → Nat} {l : List (Lit α)} (h : Asc key l) : l.Nodup :=
  List.Pairwise.imp (fun {a b} hab e => by subst e; exact Nat.lt_irrefl _ hab) h

/-- sorted sets with the same elements are equal -/
theorem asc_ext {key : Lit α → Nat} {s t : List (Lit α)} (hs : Asc key s) (ht : Asc key t) (h : ∀ x, x ∈ s ↔ x ∈ t) : s = t :=
  List.Perm.eq_of_pairwise (fun a b _ _ h1 h2 => absurd h1 (by omega)) hs ht ((List.perm_ext_iff_of_nodup (asc_nodup hs) (asc_nodup ht)).2 h)

theorem addIfNew_spec {key : Lit α → Nat} (hk : ∀ a b, key a = key b → a = b) {go : Nat → Bool} {done : List (List (Lit α))} {u : USt α} {set : List (Lit α)}
    (h : Held key done u.tree) (hd : ∀ s ∈ done, Asc key s ∧ s.length ≤ set.length) (hs : Asc key set) (hne : set ≠ []) :
    Held key (done ++ [set]) (addIfNew key go u set).tree := by
  unfold addIfNew
  split
  · rename_i hsome
    obtain ⟨t, ht⟩ := Option.isSome_iff_exists.1 hsome
    obtain ⟨p, h1, h2⟩ := firstSubset_sound hk ht
    obtain ⟨rfl, _⟩ := h.ends _ _ h1
    refine ⟨h.srt, fun p s he => ⟨(h.ends p s he).1, List.mem_append_left _ (h.ends p s he).2⟩, fun s hs => ?_, h.minimal⟩
    rcases List.mem_append.1 hs with hs | hs
    · exact h.covers s hs
    · rw [List.mem_singleton.1 hs]; exact ⟨p, h1, h2⟩
  · rename_i hnone
    have hnone : u.tree.firstSubset key set = none := by simpa using hnone
    have hno : ∀ t, Ends u.tree t t → ¬ t ⊆ set := fun t ht hsub =>
      firstSubset_complete h.srt hs ht (hd t (h.ends t t ht).2).1 hsub hnone
    have he := addPath_ends hk (set := set) set u.tree none h.srt
    refine ⟨addPath_srt set u.tree none h.srt (by simp), fun p s hps => ?_, fun s hsd => ?_, fun s t hs1 ht1 hsub => ?_⟩
    · rcases (he p s).1 hps with ⟨rfl, _, rfl⟩ | ⟨h1, _⟩
      · exact ⟨rfl, by simp⟩
      · exact ⟨(h.ends p s h1).1, List.mem_append_left _ (h.ends p s h1).2⟩
    · rcases List.mem_append.1 hsd with hsd | hsd
      · obtain ⟨t, h1, h2⟩ := h.covers s hsd
        refine ⟨t, (he t t).2 (.inr ⟨h1, ?_⟩), h2⟩
        rintro rfl
        exact hno _ h1 (fun _ h => h)
      · rw [List.mem_singleton.1 hsd]
        exact ⟨set, (he set set).2 (.inl ⟨rfl, hne, rfl⟩), fun _ h => h⟩
    · rcases (he s s).1 hs1 with ⟨rfl, _, _⟩ | ⟨h1, _⟩ <;> rcases (he t t).1 ht1 with ⟨e2, _, _⟩ | ⟨h2, _⟩
      · exact e2.symm
      · -- the new set is contained in an older one, which is not longer
        obtain ⟨ht, hlen⟩ := hd t (h.ends t t h2).2
        have hsub' : t ⊆ s := by
          have hp := List.Nodup.subperm (asc_nodup hs) hsub
          exact (hp.perm_of_length_le hlen).symm.subset
        exact absurd hsub' (hno t h2)
      · exact absurd (e2 ▸ hsub) (hno s h1)
      · exact h.minimal s t h1 h2 hsub

theorem fold_held {key : Lit α → Nat} (hk : ∀ a b, key a = key b → a = b) {go : Nat → Bool} : ∀ (sets : List (List (Lit α))) (done : List (List (Lit α))) (u : USt α),
    Held key done u.tree → (done ++ sets).Pairwise (fun s t => s.length ≤ t.length) → (∀ s ∈ done ++ sets, Asc key s ∧ s ≠ []) →
    Held key (done ++ sets) (sets.foldl (addIfNew key go) u).tree
  | [], done, u, h, _, _ => by simpa using h
  | s :: sets, done, u, h, hp, ha => by
    rw [List.foldl_cons]
    have h1 := addIfNew_spec hk (go := go) (set := s) h (fun t ht => ⟨(ha t (List.mem_append_left _ ht)).1, (List.pairwise_append.1 hp).2.2 t ht s List.mem_cons_self⟩)
      (ha s (by simp)).1 (ha s (by simp)).2
    have := fold_held hk (go := go) sets (done ++ [s]) (addIfNew key go u s) h1 (by simpa using hp) (by simpa using ha)
    simpa using this

theorem isTerm_of {d : Bool} {f : Fm α} {ops : List (Fm α)} (ho : opsOf d f = some ops) (hn : (if d then Spec.isCNF f else Spec.isDNF f) = true) :
    ∀ g ∈ ops, (if d then Spec.isClause g else Spec.isMinterm g) = true := by
  cases f <;> simp [opsOf] at ho
  · obtain ⟨rfl, rfl⟩ := ho; simpa [Spec.isCNF] using hn
  · obtain ⟨rfl, rfl⟩ := ho; simpa [Spec.isDNF] using hn

/-- the value of a clause or minterm through its literals -/
theorem term_iff {d : Bool} {g : Fm α} (h : (if d then Spec.isClause g else Spec.isMinterm g) = true) (v : α → Bool) :
    g.eval v = d ↔ ∃ l ∈ termLits g, l.eval v = d := by
  have key : ∀ fs : List (Fm α), fs.all Spec.isLit = true → ((∃ f ∈ fs, f.eval v = d) ↔
      ∃ l ∈ fs.filterMap (fun f => match f with | .lit l => some l | _ => none), l.eval v = d) := by
    intro fs hfs
    rw [List.all_eq_true] at hfs
    constructor
    · rintro ⟨f, hf, he⟩
      have := hfs f hf
      cases f <;> simp [Spec.isLit] at this
      rename_i l
      exact ⟨l, List.mem_filterMap.2 ⟨_, hf, rfl⟩, by simpa using he⟩
    · rintro ⟨l, hl, he⟩
      obtain ⟨f, hf, hfl⟩ := List.mem_filterMap.1 hl
      refine ⟨f, hf, ?_⟩
      split at hfl
      · cases hfl; simpa using he
      · cases hfl
  cases g with
  | lit l => simp [termLits]
  | or fs =>
    cases d with
    | true => simp only [if_true, Spec.isClause] at h; rw [termLits, ← key fs h]; simp
    | false => simp [Spec.isMinterm] at h
  | and fs =>
    cases d with
    | true => simp [Spec.isClause] at h
    | false => simp only [Bool.false_eq_true, if_false, Spec.isMinterm] at h; rw [termLits, ← key fs h]; simp
  | _ => cases d <;> simp [Spec.isClause, Spec.isMinterm] at h

theorem termLits_ne {d : Bool} {g : Fm α} (h : (if d then Spec.isClause g else Spec.isMinterm g) = true) (hf : Flat g) : termLits g ≠ [] := by
  have key : ∀ fs : List (Fm α), 2 ≤ fs.length → fs.all Spec.isLit = true →
      fs.filterMap (fun f => match f with | .lit l => some l | _ => none) ≠ [] := by
    intro fs h2 hl
    cases fs with
    | nil => simp at h2
    | cons f fs =>
      simp only [List.all_cons, Bool.and_eq_true] at hl
      cases f <;> simp [Spec.isLit] at hl
      simp
  cases g with
  | lit l => simp [termLits]
  | or fs =>
    cases d with
    | true => simp only [if_true, Spec.isClause] at h; rw [termLits]; exact key fs hf.ofOr.1 h
    | false => simp [Spec.isMinterm] at h
  | and fs =>
    cases d with
    | true => simp [Spec.isClause] at h
    | false => simp only [Bool.false_eq_true, if_false, Spec.isMinterm] at h; rw [termLits]; exact key fs hf.ofAnd.1 h
  | _ => cases d <;> simp [Spec.isClause, Spec.isMinterm] at h

/-- the operands of the result: sets of literals of operands of the input, none of which contains another one -/
structure Reduced (key : Lit α → Nat) (ops : List (Fm α)) (sets : List (List (Lit α))) : Prop where
  from_ops : ∀ s ∈ sets, ∃ op ∈ ops, ∀ l, l ∈ s ↔ l ∈ termLits op
  covers : ∀ op ∈ ops, ∃ s ∈ sets, s ⊆ termLits op
  minimal : ∀ s ∈ sets, ∀ t ∈ sets, s ⊆ t → s = t

theorem subsume_spec {cons d : Bool} {key : Lit α → Nat} (hk : ∀ a b, key a = key b → a = b) {go : Nat → Bool} {f : Fm α} (hf : Flat f)
    {isNF : Fm α → Bool} (hNF : ∀ g, isNF g = if d then Spec.isCNF g else Spec.isDNF g) :
    match subsume cons d key go isNF f with
    | .error => isNF f = false
    | .canceled => isNF f = true ∧ ∃ n, go n = false
    | .ok g => isNF f = true ∧ Fm.Equivalent g f ∧
      ((opsOf d f = none ∧ g = f) ∨ ∃ ops sets, opsOf d f = some ops ∧ g = nary cons d (sets.map fun s => nary cons (!d) (s.map .lit)) ∧ Reduced key ops sets) := by
  unfold subsume
  cases hn : isNF f with
  | false => simp
  | true =>
    simp only [Bool.not_true, Bool.false_eq_true, if_false]
    cases ho : opsOf d f with
    | none => exact ⟨trivial, fun _ => rfl, .inl ⟨rfl, rfl⟩⟩
    | some ops =>
      dsimp only
      cases hg : go 0 with
      | false => exact ⟨trivial, 0, hg⟩
      | true =>
        simp only [Bool.not_true, Bool.false_eq_true, if_false]
        have hterm := isTerm_of ho (hNF f ▸ hn)
        have hops : ∀ op ∈ ops, Flat op := by
          cases f <;> simp [opsOf] at ho
          · obtain ⟨rfl, rfl⟩ := ho; exact hf.ofAnd.2.1
          · obtain ⟨rfl, rfl⟩ := ho; exact hf.ofOr.2.1
        have hasc : ∀ s ∈ bySize (ops.map (termSet key)), Asc key s ∧ s ≠ [] := by
          intro s hs
          obtain ⟨op, hop, rfl⟩ := List.mem_map.1 (mem_bySize.1 hs)
          refine ⟨(termSet_spec hk op).1, fun e => ?_⟩
          have hne := termLits_ne (hterm op hop) (hops op hop)
          obtain ⟨l, hl⟩ := List.exists_mem_of_ne_nil _ hne
          have := ((termSet_spec hk op).2 l).2 hl
          rw [e] at this; simp at this
        have hheld := fold_held hk (go := go) (bySize (ops.map (termSet key))) [] ⟨.nil, 0, false⟩
          ⟨.nil, fun p s h => (by cases h), by simp, fun s t h => (by cases h)⟩ (by simpa using bySize_sorted _) (by simpa using hasc)
        rw [List.nil_append] at hheld
        obtain ⟨u, hu⟩ : ∃ u, (bySize (ops.map (termSet key))).foldl (addIfNew key go) ⟨.nil, 0, false⟩ = u := ⟨_, rfl⟩
        rw [hu] at hheld ⊢
        cases hstop : u.stop with
        | true =>
          refine ⟨trivial, Classical.byContradiction fun hno => ?_⟩
          have hgo : ∀ n, go n = true := fun n => by
            cases h : go n with
            | true => rfl
            | false => exact absurd ⟨n, h⟩ hno
          have : ∀ (ss : List (List (Lit α))) (u : USt α), u.stop = false → (ss.foldl (addIfNew key go) u).stop = false := by
            intro ss
            induction ss with
            | nil => intro u h; exact h
            | cons s ss ih =>
              intro u h
              rw [List.foldl_cons]
              refine ih _ ?_
              unfold addIfNew
              split
              · exact h
              · simp [h, hgo]
          have := this (bySize (ops.map (termSet key))) ⟨.nil, 0, false⟩ rfl
          rw [hu, hstop] at this; cases this
        | false =>
          simp only [Bool.false_eq_true, if_false]
          have hred : Reduced key ops u.tree.allSets := by
            refine ⟨fun s hs => ?_, fun op hop => ?_, fun s hs t ht hsub => ?_⟩
            · obtain ⟨p, hp⟩ := mem_allSets.1 hs
              obtain ⟨op, hop, e⟩ := List.mem_map.1 (mem_bySize.1 (hheld.ends p s hp).2)
              exact ⟨op, hop, fun l => by rw [← e]; exact (termSet_spec hk op).2 l⟩
            · obtain ⟨t, h1, h2⟩ := hheld.covers (termSet key op) (mem_bySize.2 (List.mem_map.2 ⟨op, hop, rfl⟩))
              exact ⟨t, mem_allSets.2 ⟨t, h1⟩, fun l hl => ((termSet_spec hk op).2 l).1 (h2 hl)⟩
            · obtain ⟨p, hp⟩ := mem_allSets.1 hs
              obtain ⟨q, hq⟩ := mem_allSets.1 ht
              have e1 := (hheld.ends p s hp).1
              have e2 := (hheld.ends q t hq).1
              subst e1; subst e2
              exact hheld.minimal p q hp hq hsub
          refine ⟨trivial, fun v => bool_eq_of_iff (d := d) ?_, .inr ⟨ops, _, rfl, rfl, hred⟩⟩
          rw [nary_iff, opsOf_iff ho]
          have hs : ∀ s : List (Lit α), (nary cons (!d) (s.map Fm.lit)).eval v = d ↔ ∃ l ∈ s, l.eval v = d := by
            intro s; rw [nary_dual]; simp
          simp only [List.mem_map, forall_exists_index, and_imp, forall_apply_eq_imp_iff₂, hs]
          constructor
          · intro h op hop
            obtain ⟨s, hs1, hs2⟩ := hred.covers op hop
            obtain ⟨l, hl, he⟩ := h s hs1
            exact (term_iff (hterm op hop) v).2 ⟨l, hs2 hl, he⟩
          · intro h s hs1
            obtain ⟨op, hop, hsame⟩ := hred.from_ops s hs1
            obtain ⟨l, hl, he⟩ := (term_iff (hterm op hop) v).1 (h op hop)
            exact ⟨l, (hsame l).2 hl, he⟩

/-- C36: `CNFSubsumption` with any handler: an error for a formula which is not in CNF; cancelled only if the handler says so; otherwise the result is equivalent, and if
the formula is a conjunction of clauses the result consists of clauses of it none of which contains another one -/
theorem C36_cnf_subsumption (cons : Bool) {key : Lit α → Nat} (hk : ∀ a b, key a = key b → a = b) (go : Nat → Bool) {f : Fm α} (hf : Flat f) :
    match cnfSubsumption cons key go f with
    | .error => Spec.isCNF f = false
    | .canceled => Spec.isCNF f = true ∧ ∃ n, go n = false
    | .ok g => Spec.isCNF f = true ∧ Fm.Equivalent g f ∧
      ((opsOf true f = none ∧ g = f) ∨ ∃ ops sets, f = .and ops ∧ g = tAnd cons (sets.map fun s => tOr cons (s.map .lit)) ∧ Reduced key ops sets) := by
  have h := subsume_spec (cons := cons) (d := true) hk (go := go) hf (isNF := Spec.isCNF) (fun g => rfl)
  unfold cnfSubsumption
  obtain ⟨r, hr⟩ : ∃ r, subsume cons true key go Spec.isCNF f = r := ⟨_, rfl⟩
  rw [hr] at h ⊢
  cases r with
  | error => exact h
  | canceled => exact h
  | ok g =>
    obtain ⟨h1, h2, h3⟩ := h
    refine ⟨h1, h2, h3.imp id ?_⟩
    rintro ⟨ops, sets, h4, h5, h6⟩
    refine ⟨ops, sets, ?_, h5, h6⟩
    cases f <;> simp [opsOf] at h4
    rw [h4]

/-- C36: `DNFSubsumption`, dually -/
theorem C36_dnf_subsumption (cons : Bool) {key : Lit α → Nat} (hk : ∀ a b, key a = key b → a = b) (go : Nat → Bool) {f : Fm α} (hf : Flat f) :
    match dnfSubsumption cons key go f with
    | .error => Spec.isDNF f = false
    | .canceled => Spec.isDNF f = true ∧ ∃ n, go n = false
    | .ok g => Spec.isDNF f = true ∧ Fm.Equivalent g f ∧
      ((opsOf false f = none ∧ g = f) ∨ ∃ ops sets, f = .or ops ∧ g = tOr cons (sets.map fun s => tAnd cons (s.map .lit)) ∧ Reduced key ops sets) := by
  have h := subsume_spec (cons := cons) (d := false) hk (go := go) hf (isNF := Spec.isDNF) (fun g => rfl)
  unfold dnfSubsumption
  obtain ⟨r, hr⟩ : ∃ r, subsume cons false key go Spec.isDNF f = r := ⟨_, rfl⟩
  rw [hr] at h ⊢
  cases r with
  | error => exact h
  | canceled => exact h
  | ok g =>
    obtain ⟨h1, h2, h3⟩ := h
    refine ⟨h1, h2, h3.imp id ?_⟩
    rintro ⟨ops, sets, h4, h5, h6⟩
    refine ⟨ops, sets, ?_, h5, h6⟩
    cases f <;> simp [opsOf] at h4
    rw [h4]

/-- `(a | b | c) & (a | b) & (c | d) & (b | d | c)` becomes `(a | b) & (c | d)` -/
example : cnfSubsumption false (fun l : Lit Nat => 2 * l.var + if l.pos then 1 else 0) (fun _ => true)
      (.and [.or [.lit ⟨0, true⟩, .lit ⟨1, true⟩, .lit ⟨2, true⟩], .or [.lit ⟨0, true⟩, .lit ⟨1, true⟩], .or [.lit ⟨2, true⟩, .lit ⟨3, true⟩],
        .or [.lit ⟨1, true⟩, .lit ⟨3, true⟩, .lit ⟨2, true⟩]]) =
    .ok (.and [.or [.lit ⟨0, true⟩, .lit ⟨1, true⟩], .or [.lit ⟨2, true⟩, .lit ⟨3, true⟩]]) := by
  simp [cnfSubsumption, subsume, Spec.isCNF, Spec.isClause, Spec.isLit, opsOf, termSet, termLits, insertKey, bySize, List.range_succ, addIfNew, Forest.firstSubset, Forest.addPath, Forest.update,
    Forest.get, finish, Forest.allSets, nary]
  decide

end Verif.Simpl
