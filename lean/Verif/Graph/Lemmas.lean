import Verif.Graph.Model
import Mathlib.Data.List.Nodup
import Mathlib.Logic.Relation
/-! # Lemmas on formula graphs and depth first search -/
namespace Verif.Graph
open Verif
variable {α : Type} [DecidableEq α]
set_option linter.unusedSectionVars false

structure GOk (g : FG α) : Prop where
  nodup : g.nodes.Nodup
  range : ∀ i j, j ∈ g.adj i → i < g.nodes.length ∧ j < g.nodes.length
  symm : ∀ i j, j ∈ g.adj i → i ∈ g.adj j

def Adj (g : FG α) (x y : α) : Prop := ∃ i j, g.nodes[i]? = some x ∧ g.nodes[j]? = some y ∧ j ∈ g.adj i

theorem gok_new : GOk (newFG : FG α) := ⟨by simp [newFG], by simp [newFG], by simp [newFG]⟩

theorem mem_insertSorted {n m : Nat} : ∀ {l : List Nat}, m ∈ insertSorted n l ↔ m = n ∨ m ∈ l
  | [] => by simp [insertSorted]
  | k :: l => by
    unfold insertSorted
    split
    · simp
    · split
      · rename_i e; subst e; simp
      · simp only [List.mem_cons, mem_insertSorted]
        constructor
        · rintro (h | h | h)
          · exact .inr (.inl h)
          · exact .inl h
          · exact .inr (.inr h)
        · rintro (h | h | h)
          · exact .inr (.inl h)
          · exact .inl h
          · exact .inr (.inr h)

theorem nodup_idx {l : List α} (h : l.Nodup) {i j : Nat} {x : α} (hi : l[i]? = some x) (hj : l[j]? = some x) : i = j := by
  obtain ⟨h1, e1⟩ := List.getElem?_eq_some_iff.1 hi
  obtain ⟨h2, e2⟩ := List.getElem?_eq_some_iff.1 hj
  exact (List.Nodup.getElem_inj_iff h).1 (e1.trans e2.symm)

theorem getElem?_append_some {l m : List α} {i : Nat} {x : α} (h : l[i]? = some x) : (l ++ m)[i]? = some x := by
  obtain ⟨h1, e1⟩ := List.getElem?_eq_some_iff.1 h
  rw [List.getElem?_append_left h1, h]

theorem addNode_spec {g : FG α} (G : GOk g) (x : α) : GOk (addNode g x).1 ∧ (addNode g x).1.nodes[(addNode g x).2]? = some x ∧
    (∀ z, z ∈ (addNode g x).1.nodes ↔ z ∈ g.nodes ∨ z = x) ∧ (addNode g x).1.adj = g.adj ∧
    (∀ (i : Nat) z, g.nodes[i]? = some z → (addNode g x).1.nodes[i]? = some z) := by
  unfold addNode
  split
  · rename_i h
    exact ⟨G, List.getElem?_idxOf h, fun z => ⟨.inl, fun h' => h'.elim id fun e => e ▸ h⟩, rfl, fun _ _ h => h⟩
  · rename_i h
    refine ⟨⟨List.nodup_append.2 ⟨G.nodup, by simp, fun a ha b hb e => h (by simp at hb; rw [← hb, ← e]; exact ha)⟩, fun i j hj => ?_, G.symm⟩, by simp, by simp, rfl, fun i z hz => getElem?_append_some hz⟩
    have := G.range i j hj
    simp; omega

theorem adj_of_nodes {g g' : FG α} (G : GOk g) (hadj : g'.adj = g.adj) (hn : ∀ (i : Nat) z, g.nodes[i]? = some z → g'.nodes[i]? = some z) (a b : α) : Adj g' a b ↔ Adj g a b := by
  constructor
  · rintro ⟨i, j, h1, h2, h3⟩
    rw [hadj] at h3
    obtain ⟨hi, hj⟩ := G.range i j h3
    have e1 := hn i _ (List.getElem?_eq_getElem hi)
    have e2 := hn j _ (List.getElem?_eq_getElem hj)
    rw [h1] at e1; rw [h2] at e2
    cases e1; cases e2
    exact ⟨i, j, List.getElem?_eq_getElem hi, List.getElem?_eq_getElem hj, h3⟩
  · rintro ⟨i, j, h1, h2, h3⟩
    exact ⟨i, j, hn i _ h1, hn j _ h2, by rw [hadj]; exact h3⟩

theorem connect_spec {g : FG α} (G : GOk g) {x y : α} (hxy : x ≠ y) : GOk (connect g x y) ∧ (∀ z, z ∈ (connect g x y).nodes ↔ z ∈ g.nodes ∨ z = x ∨ z = y) ∧
    ∀ a b, Adj (connect g x y) a b ↔ Adj g a b ∨ (a = x ∧ b = y) ∨ (a = y ∧ b = x) := by
  obtain ⟨G1, e1, n1, a1, p1⟩ := addNode_spec G x
  obtain ⟨G2, e2, n2, a2, p2⟩ := addNode_spec G1 y
  have e1' := p2 _ _ e1
  have hne : (addNode g x).2 ≠ (addNode (addNode g x).1 y).2 := by
    intro h
    rw [h] at e1'
    rw [e1'] at e2; cases e2; exact hxy rfl
  unfold connect
  dsimp only
  rw [if_pos hne]
  generalize addNode (addNode g x).1 y = r2 at *
  generalize addNode g x = r1 at *
  have hm : ∀ i j, (j ∈ (if i = r2.2 then insertSorted r1.2 (if i = r1.2 then insertSorted r2.2 (r2.1.adj i) else r2.1.adj i) else (if i = r1.2 then insertSorted r2.2 (r2.1.adj i) else r2.1.adj i))) ↔
      j ∈ r2.1.adj i ∨ (i = r1.2 ∧ j = r2.2) ∨ (i = r2.2 ∧ j = r1.2) := by
    intro i j
    by_cases h1 : i = r1.2
    · have h2 : i ≠ r2.2 := fun h => hne (h1.symm.trans h)
      rw [if_neg h2, if_pos h1, mem_insertSorted]
      constructor
      · rintro (h | h)
        · exact .inr (.inl ⟨h1, h⟩)
        · exact .inl h
      · rintro (h | h | h)
        · exact .inr h
        · exact .inl h.2
        · exact absurd h.1 h2
    · rw [if_neg h1]
      by_cases h2 : i = r2.2
      · rw [if_pos h2, mem_insertSorted]
        constructor
        · rintro (h | h)
          · exact .inr (.inr ⟨h2, h⟩)
          · exact .inl h
        · rintro (h | h | h)
          · exact .inr h
          · exact absurd h.1 h1
          · exact .inl h.2
      · rw [if_neg h2]
        constructor
        · exact .inl
        · rintro (h | h | h)
          · exact h
          · exact absurd h.1 h1
          · exact absurd h.1 h2
  have l1 : r1.2 < r2.1.nodes.length := (List.getElem?_eq_some_iff.1 e1').1
  have l2 : r2.2 < r2.1.nodes.length := (List.getElem?_eq_some_iff.1 e2).1
  have hadj : ∀ a b, Adj r2.1 a b ↔ Adj g a b := fun a b => by
    rw [adj_of_nodes G1 a2 p2, adj_of_nodes G a1 p1]
  refine ⟨⟨G2.nodup, fun i j hj => ?_, fun i j hj => ?_⟩, fun z => ?_, fun a b => ?_⟩
  · rcases (hm i j).1 hj with h | ⟨rfl, rfl⟩ | ⟨rfl, rfl⟩
    · exact G2.range i j h
    · exact ⟨l1, l2⟩
    · exact ⟨l2, l1⟩
  · apply (hm j i).2
    rcases (hm i j).1 hj with h | ⟨rfl, rfl⟩ | ⟨rfl, rfl⟩
    · exact .inl (G2.symm i j h)
    · exact .inr (.inr ⟨rfl, rfl⟩)
    · exact .inr (.inl ⟨rfl, rfl⟩)
  · rw [n2, n1, or_assoc]
  · rw [← hadj]
    constructor
    · rintro ⟨i, j, h1, h2, h3⟩
      rcases (hm i j).1 h3 with h | ⟨rfl, rfl⟩ | ⟨rfl, rfl⟩
      · exact .inl ⟨i, j, h1, h2, h⟩
      · rw [e1'] at h1; rw [e2] at h2; cases h1; cases h2; exact .inr (.inl ⟨rfl, rfl⟩)
      · rw [e2] at h1; rw [e1'] at h2; cases h1; cases h2; exact .inr (.inr ⟨rfl, rfl⟩)
    · rintro (⟨i, j, h1, h2, h3⟩ | ⟨rfl, rfl⟩ | ⟨rfl, rfl⟩)
      · exact ⟨i, j, h1, h2, (hm i j).2 (.inl h3)⟩
      · exact ⟨_, _, e1', e2, (hm _ _).2 (.inr (.inl ⟨rfl, rfl⟩))⟩
      · exact ⟨_, _, e2, e1', (hm _ _).2 (.inr (.inr ⟨rfl, rfl⟩))⟩

theorem connectRow {x : α} : ∀ (xs : List α) {g : FG α}, GOk g → x ∉ xs → GOk (xs.foldl (fun g y => connect g x y) g) ∧
    (∀ z, z ∈ (xs.foldl (fun g y => connect g x y) g).nodes ↔ z ∈ g.nodes ∨ z ∈ xs ∨ (xs ≠ [] ∧ z = x)) ∧
    ∀ a b, Adj (xs.foldl (fun g y => connect g x y) g) a b ↔ Adj g a b ∨ (a = x ∧ b ∈ xs) ∨ (a ∈ xs ∧ b = x)
  | [], g, G, _ => by simp [G]
  | y :: ys, g, G, hx => by
    simp only [List.mem_cons, not_or] at hx
    obtain ⟨G1, n1, a1⟩ := connect_spec G hx.1
    obtain ⟨G2, n2, a2⟩ := connectRow ys G1 hx.2
    refine ⟨G2, fun z => ?_, fun a b => ?_⟩
    · rw [List.foldl_cons, n2, n1]
      simp only [List.mem_cons, ne_eq, reduceCtorEq, not_false_eq_true, true_and]
      constructor
      · rintro ((h | h | h) | h | h)
        · exact .inl h
        · exact .inr (.inr h)
        · exact .inr (.inl (.inl h))
        · exact .inr (.inl (.inr h))
        · exact .inr (.inr h.2)
      · rintro (h | (h | h) | h)
        · exact .inl (.inl h)
        · exact .inl (.inr (.inr h))
        · exact .inr (.inl h)
        · exact .inl (.inr (.inl h))
    · rw [List.foldl_cons, a2, a1]
      simp only [List.mem_cons]
      constructor
      · rintro ((h | h | h) | h | h)
        · exact .inl h
        · exact .inr (.inl ⟨h.1, .inl h.2⟩)
        · exact .inr (.inr ⟨.inl h.1, h.2⟩)
        · exact .inr (.inl ⟨h.1, .inr h.2⟩)
        · exact .inr (.inr ⟨.inr h.1, h.2⟩)
      · rintro (h | ⟨h, h' | h'⟩ | ⟨h | h, h'⟩)
        · exact .inl (.inl h)
        · exact .inl (.inr (.inl ⟨h, h'⟩))
        · exact .inr (.inl ⟨h, h'⟩)
        · exact .inl (.inr (.inr ⟨h, h'⟩))
        · exact .inr (.inr ⟨h, h'⟩)

theorem connectAll_spec : ∀ (xs : List α) {g : FG α}, GOk g → xs.Nodup → GOk (connectAll g xs) ∧
    (∀ z, z ∈ (connectAll g xs).nodes ↔ z ∈ g.nodes ∨ (z ∈ xs ∧ 2 ≤ xs.length)) ∧
    ∀ a b, Adj (connectAll g xs) a b ↔ Adj g a b ∨ (a ∈ xs ∧ b ∈ xs ∧ a ≠ b)
  | [], g, G, _ => by simp [connectAll, G]
  | x :: xs, g, G, hn => by
    rw [List.nodup_cons] at hn
    obtain ⟨G1, n1, a1⟩ := connectRow xs G hn.1
    obtain ⟨G2, n2, a2⟩ := connectAll_spec xs G1 hn.2
    rw [connectAll]
    refine ⟨G2, fun z => ?_, fun a b => ?_⟩
    · rw [n2, n1]
      cases xs with
      | nil => simp
      | cons y ys =>
        simp only [List.mem_cons, List.length_cons, ne_eq, reduceCtorEq, not_false_eq_true, true_and]
        constructor
        · rintro ((h | h | h) | h)
          · exact .inl h
          · exact .inr ⟨.inr h, by omega⟩
          · exact .inr ⟨.inl h, by omega⟩
          · exact .inr ⟨.inr h.1, by omega⟩
        · rintro (h | ⟨h | h, _⟩)
          · exact .inl (.inl h)
          · exact .inl (.inr (.inr h))
          · exact .inl (.inr (.inl h))
    · rw [a2, a1]
      simp only [List.mem_cons]
      constructor
      · rintro ((h | ⟨rfl, h⟩ | ⟨h, rfl⟩) | h)
        · exact .inl h
        · exact .inr ⟨.inl rfl, .inr h, fun e => hn.1 (e ▸ h)⟩
        · exact .inr ⟨.inr h, .inl rfl, fun e => hn.1 (e ▸ h)⟩
        · exact .inr ⟨.inr h.1, .inr h.2.1, h.2.2⟩
      · rintro (h | ⟨rfl | h1, rfl | h2, h3⟩)
        · exact .inl (.inl h)
        · exact absurd rfl h3
        · exact .inl (.inr (.inl ⟨rfl, h2⟩))
        · exact .inl (.inr (.inr ⟨h1, rfl⟩))
        · exact .inr ⟨h1, h2, h3⟩

/-- `content` lists the variables of a formula -/
def ContentOk (content : Fm α → List α) : Prop := ∀ f, (content f).Nodup ∧ ∀ x, x ∈ content f ↔ x ∈ f.vars

theorem addSubformula_spec {content : Fm α → List α} (hc : ContentOk content) {g : FG α} (G : GOk g) (f : Fm α) : GOk (addSubformula content g f) ∧
    (∀ z, z ∈ (addSubformula content g f).nodes ↔ z ∈ g.nodes ∨ z ∈ f.vars) ∧
    ∀ a b, Adj (addSubformula content g f) a b ↔ Adj g a b ∨ (a ∈ f.vars ∧ b ∈ f.vars ∧ a ≠ b) := by
  obtain ⟨hn, hm⟩ := hc f
  unfold addSubformula
  dsimp only
  simp only [← hm]
  generalize content f = vs at *
  rcases vs with _ | ⟨x, _ | ⟨y, l⟩⟩
  · simp [connectAll, G]
  · dsimp only
    obtain ⟨G1, e1, n1, a1, p1⟩ := addNode_spec G x
    obtain ⟨G2, n2, a2⟩ := connectAll_spec [x] G1 hn
    refine ⟨G2, fun z => ?_, fun a b => ?_⟩
    · rw [n2, n1]; simp
    · rw [a2, adj_of_nodes G a1 p1]
  · dsimp only
    obtain ⟨G2, n2, a2⟩ := connectAll_spec (x :: y :: l) G hn
    refine ⟨G2, fun z => ?_, a2⟩
    rw [n2]; simp

theorem constraintGraph_spec {content : Fm α → List α} (hc : ContentOk content) (fs : List (Fm α)) : GOk (constraintGraph content fs) ∧
    (∀ z, z ∈ (constraintGraph content fs).nodes ↔ ∃ f ∈ fs, z ∈ f.vars) ∧
    ∀ a b, Adj (constraintGraph content fs) a b ↔ ∃ f ∈ fs, a ∈ f.vars ∧ b ∈ f.vars ∧ a ≠ b := by
  have key : ∀ (fs : List (Fm α)) {g : FG α}, GOk g → GOk (fs.foldl (addSubformula content) g) ∧
      (∀ z, z ∈ (fs.foldl (addSubformula content) g).nodes ↔ z ∈ g.nodes ∨ ∃ f ∈ fs, z ∈ f.vars) ∧
      ∀ a b, Adj (fs.foldl (addSubformula content) g) a b ↔ Adj g a b ∨ ∃ f ∈ fs, a ∈ f.vars ∧ b ∈ f.vars ∧ a ≠ b := by
    intro fs
    induction fs with
    | nil => intro g G; simp [G]
    | cons f fs ih =>
      intro g G
      obtain ⟨G1, n1, a1⟩ := addSubformula_spec hc G f
      obtain ⟨G2, n2, a2⟩ := ih G1
      refine ⟨G2, fun z => ?_, fun a b => ?_⟩
      · rw [List.foldl_cons, n2, n1]; simp [or_assoc]
      · rw [List.foldl_cons, a2, a1]; simp only [List.mem_cons, exists_eq_or_imp, or_assoc]
  obtain ⟨G, n, a⟩ := key fs gok_new
  refine ⟨G, fun z => ?_, fun x y => ?_⟩
  · exact (n z).trans (by simp [newFG])
  · exact (a x y).trans (by simp [Adj, newFG])

/-! ### depth first search -/

/-- number of unmarked nodes -/
def unm (N : Nat) (M : Nat → Bool) : Nat := (List.range N).countP fun i => !M i

theorem unm_mark {N v : Nat} {M : Nat → Bool} (hv : v < N) (hm : M v = false) : unm N (fun i => if i = v then true else M i) + 1 = unm N M := by
  unfold unm
  induction N with
  | zero => omega
  | succ n ih =>
    rw [List.range_succ, List.countP_append, List.countP_append]
    by_cases e : v = n
    · subst e
      have : (List.range v).countP (fun i => !(if i = v then true else M i)) = (List.range v).countP fun i => !M i := by
        refine List.countP_congr fun i hi => ?_
        have : i ≠ v := by simp at hi; omega
        simp [this]
      rw [this]; simp [hm]
    · have := ih (by omega)
      simp only [List.countP_cons, List.countP_nil]
      have e' : n ≠ v := fun h => e h.symm
      simp only [e', if_false]
      rw [← this]; simp only [Bool.if_true_left]; omega

theorem unm_mono {N : Nat} {M M' : Nat → Bool} (h : ∀ i, M i = true → M' i = true) : unm N M' ≤ unm N M := by
  unfold unm
  refine List.countP_mono_left fun i _ hi => ?_
  simp at hi ⊢
  cases hM : M i
  · rfl
  · rw [h i hM] at hi; cases hi

/-- reachable in the graph -/
def Reach (g : FG α) : Nat → Nat → Prop := Relation.ReflTransGen fun i j => j ∈ g.adj i

/-- result of a search that extends `(comp, M)` by the nodes `new` -/
structure DfsOk (g : FG α) (M : Nat → Bool) (new : List Nat) (M' : Nat → Bool) : Prop where
  nodup : new.Nodup
  fresh : ∀ i ∈ new, M i = false ∧ i < g.nodes.length
  marked : ∀ i, M' i = true ↔ M i = true ∨ i ∈ new
  closed : ∀ i ∈ new, ∀ j ∈ g.adj i, M' j = true

theorem dfs_spec {g : FG α} (G : GOk g) : ∀ (n : Nat) (v : Nat) (comp : List Nat) (M : Nat → Bool), v < g.nodes.length → M v = false → unm g.nodes.length M ≤ n →
    ∃ new M', dfs g n v (comp, M) = some (comp ++ new, M') ∧ DfsOk g M new M' ∧ v ∈ new ∧ ∀ i ∈ new, Reach g v i
  | 0, v, comp, M, hv, hm, hu => by
    have := unm_mark hv hm; omega
  | n + 1, v, comp, M, hv, hm, hu => by
    have hu' : unm g.nodes.length (fun i => if i = v then true else M i) ≤ n := by have := unm_mark hv hm; omega
    -- the loop over the neighbours
    have loop : ∀ (ws : List Nat) (comp : List Nat) (M0 : Nat → Bool), (∀ w ∈ ws, w ∈ g.adj v) → unm g.nodes.length M0 ≤ n →
        ∃ new M', foldOpt (fun st w => if st.2 w then some st else dfs g n w st) (comp, M0) ws = some (comp ++ new, M') ∧ DfsOk g M0 new M' ∧ (∀ w ∈ ws, M' w = true) ∧ ∀ i ∈ new, Reach g v i := by
      intro ws
      induction ws with
      | nil => intro comp M0 _ _; exact ⟨[], M0, by simp [foldOpt], ⟨by simp, by simp, by simp, by simp⟩, by simp, by simp⟩
      | cons w ws ih =>
        intro comp M0 hws hu0
        have hwv := hws w (by simp)
        by_cases hw : M0 w = true
        · obtain ⟨new, M', h1, h2, h3, h4⟩ := ih comp M0 (fun x hx => hws x (by simp [hx])) hu0
          refine ⟨new, M', by simp [foldOpt, hw, h1], h2, fun x hx => ?_, h4⟩
          rcases List.mem_cons.1 hx with rfl | hx
          · exact (h2.marked x).2 (.inl hw)
          · exact h3 x hx
        · have hw' : M0 w = false := by simpa using hw
          obtain ⟨new1, M1, e1, d1, m1, r1⟩ := dfs_spec G n w comp M0 (G.range v w hwv).2 hw' hu0
          obtain ⟨new2, M2, e2, d2, m2, r2⟩ := ih (comp ++ new1) M1 (fun x hx => hws x (by simp [hx])) (by
            have := unm_mono (N := g.nodes.length) (fun i hi => (d1.marked i).2 (.inl hi)); omega)
          refine ⟨new1 ++ new2, M2, by simp [foldOpt, hw', e1, e2], ⟨?_, ?_, ?_, ?_⟩, ?_, ?_⟩
          · refine List.nodup_append.2 ⟨d1.nodup, d2.nodup, fun a ha b hb e => ?_⟩
            subst e
            have := (d2.fresh a hb).1
            rw [(d1.marked a).2 (.inr ha)] at this; cases this
          · intro i hi
            rcases List.mem_append.1 hi with hi | hi
            · exact d1.fresh i hi
            · refine ⟨?_, (d2.fresh i hi).2⟩
              have := (d2.fresh i hi).1
              cases hM : M0 i
              · rfl
              · rw [(d1.marked i).2 (.inl hM)] at this; cases this
          · intro i; rw [d2.marked, d1.marked, List.mem_append, or_assoc]
          · intro i hi j hj
            rcases List.mem_append.1 hi with hi | hi
            · exact (d2.marked j).2 (.inl (d1.closed i hi j hj))
            · exact d2.closed i hi j hj
          · intro x hx
            rcases List.mem_cons.1 hx with rfl | hx
            · exact (d2.marked x).2 (.inl ((d1.marked x).2 (.inr m1)))
            · exact m2 x hx
          · intro i hi
            rcases List.mem_append.1 hi with hi | hi
            · exact Relation.ReflTransGen.head hwv (r1 i hi)
            · exact r2 i hi
    obtain ⟨new, M', h1, h2, h3, h4⟩ := loop (g.adj v) (comp ++ [v]) _ (fun _ h => h) hu'
    refine ⟨v :: new, M', by rw [dfs, h1]; simp, ⟨?_, ?_, ?_, ?_⟩, by simp, ?_⟩
    · refine List.nodup_cons.2 ⟨fun hv' => ?_, h2.nodup⟩
      have := (h2.fresh v hv').1; simp at this
    · intro i hi
      rcases List.mem_cons.1 hi with rfl | hi
      · exact ⟨hm, hv⟩
      · have := h2.fresh i hi
        refine ⟨?_, this.2⟩
        have h0 := this.1
        split at h0
        · cases h0
        · exact h0
    · intro i
      rw [h2.marked]
      by_cases e : i = v
      · subst e; simp
      · simp [e]
    · intro i hi j hj
      rcases List.mem_cons.1 hi with rfl | hi
      · exact h3 j hj
      · exact h2.closed i hi j hj
    · intro i hi
      rcases List.mem_cons.1 hi with rfl | hi
      · exact .refl
      · exact h4 i hi

/-- state of the component loop: the components so far are closed, connected, duplicate free and contain exactly the marked nodes -/
structure CcOk (g : FG α) (M : Nat → Bool) (cs : List (List Nat)) : Prop where
  nodup : cs.flatten.Nodup
  range : ∀ i ∈ cs.flatten, i < g.nodes.length
  marked : ∀ i, M i = true ↔ i ∈ cs.flatten
  closed : ∀ c ∈ cs, ∀ i ∈ c, ∀ j ∈ g.adj i, j ∈ c
  conn : ∀ c ∈ cs, ∃ v ∈ c, ∀ i ∈ c, Reach g v i

theorem ccStep {g : FG α} (G : GOk g) {M M' : Nat → Bool} {cs : List (List Nat)} {new : List Nat} {v : Nat} (C : CcOk g M cs) (D : DfsOk g M new M') (hv : v ∈ new) (hr : ∀ i ∈ new, Reach g v i) :
    CcOk g M' (cs ++ [new]) := by
  have hflat : (cs ++ [new]).flatten = cs.flatten ++ new := by simp
  refine ⟨?_, ?_, ?_, ?_, ?_⟩
  · rw [hflat]
    refine List.nodup_append.2 ⟨C.nodup, D.nodup, fun a ha b hb e => ?_⟩
    subst e
    have := (D.fresh a hb).1
    rw [(C.marked a).2 ha] at this; cases this
  · rw [hflat]
    intro i hi
    rcases List.mem_append.1 hi with hi | hi
    · exact C.range i hi
    · exact (D.fresh i hi).2
  · intro i; rw [hflat, D.marked, C.marked, List.mem_append]
  · intro c hc i hi j hj
    rcases List.mem_append.1 hc with hc | hc
    · exact C.closed c hc i hi j hj
    · simp at hc; subst hc
      rcases (D.marked j).1 (D.closed i hi j hj) with h | h
      · obtain ⟨c, hc, hjc⟩ := List.mem_flatten.1 ((C.marked j).1 h)
        have := C.closed c hc j hjc i (G.symm i j hj)
        have h2 : M i = true := (C.marked i).2 (List.mem_flatten.2 ⟨c, hc, this⟩)
        rw [(D.fresh i hi).1] at h2; cases h2
      · exact h
  · intro c hc
    rcases List.mem_append.1 hc with hc | hc
    · exact C.conn c hc
    · simp at hc; subst hc; exact ⟨v, hv, hr⟩

theorem ccLoop_spec {g : FG α} (G : GOk g) : ∀ (n : Nat) (o : Option Nat) (M : Nat → Bool) (cs : List (List Nat)), CcOk g M cs → unm g.nodes.length M ≤ n →
    (o = none → ∀ i, i < g.nodes.length → M i = true) → (∀ i, o = some i → i < g.nodes.length ∧ M i = false) →
    ∃ cs' M', ccLoop g n o M cs = some cs' ∧ CcOk g M' cs' ∧ ∀ i, i < g.nodes.length → M' i = true
  | n, none, M, cs, C, _, h1, _ => by rw [ccLoop]; exact ⟨cs, M, rfl, C, h1 rfl⟩
  | 0, some i, M, cs, C, hu, _, h2 => by
    obtain ⟨a, b⟩ := h2 i rfl
    have := unm_mark a b; omega
  | n + 1, some i, M, cs, C, hu, _, h2 => by
    obtain ⟨a, b⟩ := h2 i rfl
    have hle : unm g.nodes.length M ≤ g.nodes.length := Nat.le_trans List.countP_le_length (by simp)
    obtain ⟨new, M', e, D, hv, hr⟩ := dfs_spec G g.nodes.length i [] M a b hle
    rw [ccLoop, e]
    dsimp only
    refine ccLoop_spec G n _ M' _ (by simpa using ccStep G C D hv hr) ?_ ?_ ?_
    · have h1 := unm_mark a b
      have h2 := unm_mono (N := g.nodes.length) (M := fun j => if j = i then true else M j) (M' := M') (fun j hj => by
        rw [D.marked]
        split at hj
        · rename_i e; subst e; exact .inr hv
        · exact .inl hj)
      omega
    · intro hn j hj
      rw [List.find?_eq_none] at hn
      have := hn j (by simpa using hj)
      simpa using this
    · intro j hj
      have h1 := List.find?_some hj
      have h2 := List.mem_of_find?_eq_some hj
      exact ⟨by simpa using h2, by simpa using h1⟩

theorem components_spec {g : FG α} (G : GOk g) : ∃ cs, components g = some cs ∧ cs.flatten.Nodup ∧ (∀ x, x ∈ cs.flatten ↔ x ∈ g.nodes) ∧
    (∀ c ∈ cs, ∀ x ∈ c, ∀ y, Adj g x y → y ∈ c) ∧ ∀ c ∈ cs, ∃ x ∈ c, ∀ y ∈ c, Relation.ReflTransGen (Adj g) x y := by
  unfold components
  split
  · rename_i h
    exact ⟨[], rfl, by simp, by simp [h], by simp, by simp⟩
  · rename_i h
    have hpos : 0 < g.nodes.length := List.length_pos_iff.2 h
    obtain ⟨cs, M', e, C, hall⟩ := ccLoop_spec G g.nodes.length (some 0) (fun _ => false) [] ⟨by simp, by simp, by simp, by simp, by simp⟩
      (Nat.le_trans List.countP_le_length (by simp)) (by simp) (by simp [hpos])
    rw [e]
    refine ⟨_, rfl, ?_, ?_, ?_, ?_⟩
    · have : (cs.map fun c => c.filterMap fun i => g.nodes[i]?).flatten = cs.flatten.filterMap fun i => g.nodes[i]? := by
        rw [List.filterMap_flatten]
      rw [this]
      exact List.Nodup.filterMap (fun i j x hi hj => nodup_idx G.nodup hi hj) C.nodup
    · intro x
      simp only [List.mem_flatten, List.mem_map, exists_exists_and_eq_and, List.mem_filterMap]
      constructor
      · rintro ⟨c, hc, i, hi, hx⟩; exact List.mem_of_getElem? hx
      · intro hx
        obtain ⟨i, hi, rfl⟩ := List.mem_iff_getElem.1 hx
        have := (C.marked i).1 (hall i hi)
        obtain ⟨c, hc, hic⟩ := List.mem_flatten.1 this
        exact ⟨c, hc, i, hic, List.getElem?_eq_getElem hi⟩
    · intro c hc x hx y hxy
      obtain ⟨c, hc', rfl⟩ := List.mem_map.1 hc
      obtain ⟨i, hi, hix⟩ := List.mem_filterMap.1 hx
      obtain ⟨i', j, h1, h2, h3⟩ := hxy
      have := nodup_idx G.nodup hix h1
      subst this
      exact List.mem_filterMap.2 ⟨j, C.closed c hc' i hi j h3, h2⟩
    · intro c hc
      obtain ⟨c, hc', rfl⟩ := List.mem_map.1 hc
      obtain ⟨v, hv, hr⟩ := C.conn c hc'
      have hlt : ∀ i ∈ c, i < g.nodes.length := fun i hi => C.range i (List.mem_flatten.2 ⟨c, hc', hi⟩)
      refine ⟨g.nodes[v]'(hlt v hv), List.mem_filterMap.2 ⟨v, hv, List.getElem?_eq_getElem _⟩, fun y hy => ?_⟩
      obtain ⟨i, hi, hiy⟩ := List.mem_filterMap.1 hy
      have hreach : ∀ j, Reach g v j → ∃ h : j < g.nodes.length, Relation.ReflTransGen (Adj g) (g.nodes[v]'(hlt v hv)) (g.nodes[j]'h) := by
        intro j hj
        induction hj with
        | refl => exact ⟨hlt v hv, .refl⟩
        | @tail k l _ hkl ih =>
          obtain ⟨hk, ih⟩ := ih
          have hl := (G.range k l hkl).2
          exact ⟨hl, ih.tail ⟨k, l, List.getElem?_eq_getElem hk, List.getElem?_eq_getElem hl, hkl⟩⟩
      obtain ⟨h1, h2⟩ := hreach i (hr i hi)
      rw [List.getElem?_eq_getElem h1] at hiy
      cases hiy
      exact h2

end Verif.Graph
