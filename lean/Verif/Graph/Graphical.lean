import Verif.Graph.Lemmas
import Verif.Graphical.Formula
import Mathlib.Data.List.Induction
/-!
# Formula graphs and their graphical representations (C72)

Model of /repo/graph/formula_graph.go (with `Model.lean`) and /repo/graph/graphical.go. A pointer to a node of the drawing is the number in the id of the node, as in C67.
-/
namespace Verif.Graph
open Verif Verif.Graphical
variable {α σ τ : Type} [DecidableEq α]

/-! ## model -/

/-- the functions that change a graph from outside: formula_graph.go:42 and 54 -/
inductive Op (α : Type)
  | add (x : α)
  | con (x y : α)

def Op.run (g : FG α) : Op α → FG α
  | .add x => (addNode g x).1
  | .con x y => connect g x y

/-- a graph after some calls -/
def runOps (ops : List (Op α)) : FG α := ops.foldl Op.run newFG

/-- formula_graph.go:27-38 `Neighbours` -/
def neighbours (g : FG α) (x : α) : List α := if x ∈ g.nodes then (g.adj (g.nodes.idxOf x)).filterMap fun i => g.nodes[i]? else []

/-- the functions of the generator of C67 for a formula: `LabelOrDefault(node, node.Sprint(fac))`, `NodeStyle`, `EdgeStyle` -/
structure DGen (α σ τ : Type) where
  label : α → String
  node : α → σ
  edge : α → α → τ

/-- graph/graphical.go:30-36 `graphGenerator`; `keys`: the keys of the map `nodes` in the order of their insertion -/
structure Draw (α σ τ : Type) where
  keys : List α
  rep : Rep σ τ

/-- graph/graphical.go:51-60 `addNode` -/
def dAdd (G : DGen α σ τ) (x : α) (d : Draw α σ τ) : Draw α σ τ :=
  if x ∈ d.keys then d else ⟨d.keys ++ [x], ⟨d.rep.nodes ++ [⟨d.keys.length, G.label x, G.node x, false⟩], d.rep.edges⟩⟩

/-- graph/graphical.go:42-45, loop body; `vs`: the keys of `visited` -/
def dStep (G : DGen α σ τ) (x : α) (vs : List α) (d : Draw α σ τ) (y : α) : Draw α σ τ :=
  let d1 := dAdd G y d
  if y ∈ vs then d1 else ⟨d1.keys, Graphical.addEdge (d1.keys.idxOf x) (d1.keys.idxOf y) (G.edge x y) "" d1.rep⟩

/-- graph/graphical.go:38-49 `walkGraph` -/
def dWalk (G : DGen α σ τ) (nb : α → List α) : List α → List α → Draw α σ τ → Draw α σ τ
  | _, [], d => d
  | vs, x :: ns, d => dWalk G nb (x :: vs) ns ((nb x).foldl (dStep G x vs) (dAdd G x d))

/-- graph/graphical.go:16-28 `GenerateGraphicalFormulaGraph` -/
def draw (G : DGen α σ τ) (g : FG α) : Rep σ τ := (dWalk G (neighbours g) [] g.nodes ⟨[], ⟨[], []⟩⟩).rep

/-! ## specification -/

/-- some call names the formula -/
def Known (ops : List (Op α)) (x : α) : Prop := ∃ o ∈ ops, match o with
  | .add y => x = y
  | .con y z => x = y ∨ x = z

/-- two different formulas have been connected -/
def Joined (ops : List (Op α)) (x y : α) : Prop := x ≠ y ∧ (Op.con x y ∈ ops ∨ Op.con y x ∈ ops)

/-- the number of edges between two nodes of a drawing, in any direction -/
def between (r : Rep σ τ) (i j : Nat) : Nat := r.edges.countP fun e => decide ((e.src = i ∧ e.dst = j) ∨ (e.src = j ∧ e.dst = i))

/-! ## lemmas -/

theorem insertSorted_sorted {n : Nat} : ∀ {l : List Nat}, l.Pairwise (· < ·) → (insertSorted n l).Pairwise (· < ·)
  | [], _ => by simp [insertSorted]
  | m :: l, h => by
    rw [List.pairwise_cons] at h
    unfold insertSorted
    split
    · rename_i hn
      refine List.pairwise_cons.2 ⟨fun k hk => ?_, List.pairwise_cons.2 h⟩
      rcases List.mem_cons.1 hk with rfl | hk
      · exact hn
      · exact Nat.lt_trans hn (h.1 k hk)
    · split
      · exact List.pairwise_cons.2 h
      · refine List.pairwise_cons.2 ⟨fun k hk => ?_, insertSorted_sorted h.2⟩
        rcases mem_insertSorted.1 hk with rfl | hk
        · omega
        · exact h.1 k hk

def Sorted (g : FG α) : Prop := ∀ i, (g.adj i).Pairwise (· < ·)

theorem addNode_adj (g : FG α) (x : α) : (addNode g x).1.adj = g.adj := by
  unfold addNode
  split <;> rfl

theorem connect_sorted {g : FG α} (h : Sorted g) (x y : α) : Sorted (connect g x y) := by
  have h2 : Sorted (addNode (addNode g x).1 y).1 := fun i => by rw [addNode_adj, addNode_adj]; exact h i
  unfold connect
  intro i
  simp only
  split
  · simp only
    split
    · refine insertSorted_sorted ?_
      split
      · exact insertSorted_sorted (h2 i)
      · exact h2 i
    · split
      · exact insertSorted_sorted (h2 i)
      · exact h2 i
  · exact h2 i

theorem connect_self (g : FG α) (x : α) : connect g x x = (addNode g x).1 := by
  unfold connect addNode
  by_cases h : x ∈ g.nodes
  · simp [h]
  · simp [h, List.idxOf_append]

theorem runOps_append (ops : List (Op α)) (o : Op α) : runOps (ops ++ [o]) = o.run (runOps ops) := by simp [runOps]

theorem runOps_spec (ops : List (Op α)) : GOk (runOps ops) ∧ Sorted (runOps ops) ∧ (∀ x, x ∈ (runOps ops).nodes ↔ Known ops x) ∧ ∀ x y, Adj (runOps ops) x y ↔ Joined ops x y := by
  induction ops using List.reverseRecOn with
  | nil => exact ⟨gok_new, by simp [Sorted, runOps, newFG], by simp [runOps, newFG, Known], by simp [runOps, newFG, Adj, Joined]⟩
  | append_singleton ops o ih =>
    obtain ⟨h1, h2, h3, h4⟩ := ih
    rw [runOps_append]
    have kn : ∀ x, Known (ops ++ [o]) x ↔ Known ops x ∨ Known [o] x := fun x => by
      unfold Known
      simp only [List.mem_append, or_and_right, exists_or]
    have add : ∀ x, GOk (addNode (runOps ops) x).1 ∧ Sorted (addNode (runOps ops) x).1 ∧ (∀ z, z ∈ (addNode (runOps ops) x).1.nodes ↔ Known ops z ∨ z = x) ∧
        ∀ a b, Adj (addNode (runOps ops) x).1 a b ↔ Joined ops a b := fun x => by
      obtain ⟨a1, -, a3, a4, a5⟩ := addNode_spec h1 x
      refine ⟨a1, fun i => by rw [a4]; exact h2 i, fun z => by rw [a3, h3], fun a b => ?_⟩
      rw [adj_of_nodes h1 a4 a5, h4]
    cases o with
    | add x =>
      obtain ⟨a1, a2, a3, a4⟩ := add x
      refine ⟨a1, a2, fun z => ?_, fun a b => ?_⟩
      · rw [kn]
        refine (a3 z).trans ?_
        simp [Known]
      · refine (a4 a b).trans ?_
        simp [Joined]
    | con x y =>
      by_cases hxy : x = y
      · subst hxy
        obtain ⟨a1, a2, a3, a4⟩ := add x
        show GOk (connect _ x x) ∧ Sorted (connect _ x x) ∧ (∀ z, z ∈ (connect _ x x).nodes ↔ _) ∧ ∀ a b, Adj (connect _ x x) a b ↔ _
        rw [connect_self]
        refine ⟨a1, a2, fun z => ?_, fun a b => ?_⟩
        · rw [kn]
          refine (a3 z).trans ?_
          simp [Known]
        · refine (a4 a b).trans ?_
          unfold Joined
          constructor
          · rintro ⟨h, h'⟩
            exact ⟨h, h'.imp (List.mem_append_left _) (List.mem_append_left _)⟩
          · rintro ⟨h, h'⟩
            refine ⟨h, ?_⟩
            simp only [List.mem_append, List.mem_singleton, Op.con.injEq] at h'
            rcases h' with (h' | ⟨rfl, rfl⟩) | h' | ⟨rfl, rfl⟩
            · exact .inl h'
            · exact absurd rfl h
            · exact .inr h'
            · exact absurd rfl h
      · obtain ⟨c1, c2, c3⟩ := connect_spec h1 hxy
        refine ⟨c1, connect_sorted h2 x y, fun z => ?_, fun a b => ?_⟩
        · rw [kn]
          refine (c2 z).trans ?_
          rw [h3]
          simp [Known]
        · refine (c3 a b).trans ?_
          rw [h4]
          unfold Joined
          simp only [List.mem_append, List.mem_singleton, Op.con.injEq]
          constructor
          · rintro (⟨h, h' | h'⟩ | ⟨rfl, rfl⟩ | ⟨rfl, rfl⟩)
            · exact ⟨h, .inl (.inl h')⟩
            · exact ⟨h, .inr (.inl h')⟩
            · exact ⟨hxy, .inl (.inr ⟨rfl, rfl⟩)⟩
            · exact ⟨fun e => hxy e.symm, .inr (.inr ⟨rfl, rfl⟩)⟩
          · rintro ⟨h, (h' | ⟨rfl, rfl⟩) | h' | ⟨rfl, rfl⟩⟩
            · exact .inl ⟨h, .inl h'⟩
            · exact .inr (.inl ⟨rfl, rfl⟩)
            · exact .inl ⟨h, .inr h'⟩
            · exact .inr (.inr ⟨rfl, rfl⟩)

theorem mem_neighbours {g : FG α} (G : GOk g) {x y : α} : y ∈ neighbours g x ↔ Adj g x y := by
  unfold neighbours
  constructor
  · intro h
    split at h
    · rename_i hx
      obtain ⟨j, hj, hy⟩ := List.mem_filterMap.1 h
      exact ⟨_, j, List.getElem?_idxOf hx, hy, hj⟩
    · simp at h
  · rintro ⟨i, j, h1, h2, h3⟩
    have hx : x ∈ g.nodes := List.mem_of_getElem? h1
    rw [if_pos hx]
    rw [nodup_idx G.nodup h1 (List.getElem?_idxOf hx)] at h3
    exact List.mem_filterMap.2 ⟨j, h3, h2⟩

theorem neighbours_nodup {g : FG α} (G : GOk g) (S : Sorted g) (x : α) : (neighbours g x).Nodup := by
  unfold neighbours
  split
  · refine List.Nodup.filterMap (fun i j z hi hj => nodup_idx G.nodup hi hj) ((S _).imp fun h => ?_)
    omega
  · exact List.nodup_nil

/-- the pairs of formulas with an edge in the drawing, in the order of the edges -/
def pairs (nb : α → List α) : List α → List α → List (α × α)
  | _, [] => []
  | vs, x :: ns => ((nb x).filter fun y => decide (y ∉ vs)).map (fun y => (x, y)) ++ pairs nb (x :: vs) ns

def eOf (G : DGen α σ τ) (keys : List α) (p : α × α) : Edge τ := ⟨keys.idxOf p.1, keys.idxOf p.2, G.edge p.1 p.2, ""⟩

structure DInv (G : DGen α σ τ) (d : Draw α σ τ) (ps : List (α × α)) : Prop where
  nodup : d.keys.Nodup
  nodes : d.rep.nodes = d.keys.mapIdx fun i x => ⟨i, G.label x, G.node x, false⟩
  edges : d.rep.edges = ps.map (eOf G d.keys)
  mem : ∀ p ∈ ps, p.1 ∈ d.keys ∧ p.2 ∈ d.keys

theorem dAdd_spec {G : DGen α σ τ} {d : Draw α σ τ} {ps : List (α × α)} (I : DInv G d ps) (x : α) : DInv G (dAdd G x d) ps ∧ ∀ z, z ∈ (dAdd G x d).keys ↔ z ∈ d.keys ∨ z = x := by
  unfold dAdd
  by_cases h : x ∈ d.keys
  · rw [if_pos h]
    exact ⟨I, fun z => ⟨.inl, fun hz => hz.elim id fun e => e ▸ h⟩⟩
  · rw [if_neg h]
    refine ⟨⟨?_, ?_, ?_, ?_⟩, fun z => by simp⟩
    · exact List.nodup_append.2 ⟨I.nodup, by simp, fun a ha b hb e => h (by simp at hb; subst hb; exact e ▸ ha)⟩
    · simp [I.nodes, List.mapIdx_append]
    · simp only
      rw [I.edges]
      refine List.map_congr_left fun p hp => ?_
      unfold eOf
      rw [List.idxOf_append_of_mem (I.mem p hp).1, List.idxOf_append_of_mem (I.mem p hp).2]
    · exact fun p hp => ⟨List.mem_append_left _ (I.mem p hp).1, List.mem_append_left _ (I.mem p hp).2⟩

theorem dRow_spec {G : DGen α σ τ} {x : α} {vs : List α} : ∀ {ys : List α} {d : Draw α σ τ} {ps : List (α × α)}, DInv G d ps → x ∈ d.keys →
    DInv G (ys.foldl (dStep G x vs) d) (ps ++ (ys.filter fun y => decide (y ∉ vs)).map fun y => (x, y)) ∧ ∀ z, z ∈ (ys.foldl (dStep G x vs) d).keys ↔ z ∈ d.keys ∨ z ∈ ys
  | [], d, ps, I, _ => by simpa using I
  | y :: ys, d, ps, I, hx => by
    obtain ⟨I1, k1⟩ := dAdd_spec I y
    have hx1 := (k1 x).2 (.inl hx)
    rw [List.foldl_cons]
    by_cases hv : y ∈ vs
    · have : dStep G x vs d y = dAdd G y d := by unfold dStep; rw [if_pos hv]
      rw [this]
      obtain ⟨I2, k2⟩ := dRow_spec (vs := vs) (ys := ys) I1 hx1
      rw [List.filter_cons_of_neg (by simpa using hv)]
      refine ⟨I2, fun z => ?_⟩
      rw [k2, k1, List.mem_cons, or_assoc]
    · have e : dStep G x vs d y = ⟨(dAdd G y d).keys, Graphical.addEdge ((dAdd G y d).keys.idxOf x) ((dAdd G y d).keys.idxOf y) (G.edge x y) "" (dAdd G y d).rep⟩ := by
        unfold dStep; rw [if_neg hv]
      have I' : DInv G (dStep G x vs d y) (ps ++ [(x, y)]) := by
        rw [e]
        refine ⟨I1.nodup, I1.nodes, ?_, fun p hp => ?_⟩
        · simp only [Graphical.addEdge, I1.edges, List.map_append]
          rfl
        · rcases List.mem_append.1 hp with hp | hp
          · exact I1.mem p hp
          · simp only [List.mem_singleton] at hp
            subst hp
            exact ⟨hx1, (k1 y).2 (.inr rfl)⟩
      have k' : (dStep G x vs d y).keys = (dAdd G y d).keys := by rw [e]
      obtain ⟨I2, k2⟩ := dRow_spec (vs := vs) (ys := ys) I' (by rw [k']; exact hx1)
      rw [List.filter_cons_of_pos (by simpa using hv)]
      refine ⟨by simpa using I2, fun z => ?_⟩
      rw [k2, k', k1, List.mem_cons, or_assoc]

theorem dWalk_spec {G : DGen α σ τ} {nb : α → List α} : ∀ {ns vs : List α} {d : Draw α σ τ} {ps : List (α × α)}, DInv G d ps →
    DInv G (dWalk G nb vs ns d) (ps ++ pairs nb vs ns) ∧ ∀ z, z ∈ (dWalk G nb vs ns d).keys ↔ z ∈ d.keys ∨ z ∈ ns ∨ ∃ x ∈ ns, z ∈ nb x
  | [], vs, d, ps, I => by simpa [dWalk, pairs] using I
  | x :: ns, vs, d, ps, I => by
    obtain ⟨I1, k1⟩ := dAdd_spec I x
    obtain ⟨I2, k2⟩ := dRow_spec (vs := vs) (ys := nb x) I1 ((k1 x).2 (.inr rfl))
    obtain ⟨I3, k3⟩ := dWalk_spec (nb := nb) (ns := ns) (vs := x :: vs) I2
    rw [dWalk, pairs]
    refine ⟨by rw [← List.append_assoc]; exact I3, fun z => ?_⟩
    rw [k3, k2, k1]
    simp only [List.mem_cons, exists_eq_or_imp]
    tauto

theorem pairs_mem {nb : α → List α} : ∀ {ns vs : List α} {p : α × α}, p ∈ pairs nb vs ns → p.1 ∈ ns ∧ p.2 ∈ nb p.1 ∧ p.2 ∉ vs
  | [], vs, p, h => by simp [pairs] at h
  | x :: ns, vs, p, h => by
    rw [pairs, List.mem_append] at h
    rcases h with h | h
    · obtain ⟨y, hy, rfl⟩ := List.mem_map.1 h
      rw [List.mem_filter] at hy
      exact ⟨by simp, hy.1, by simpa using hy.2⟩
    · obtain ⟨h1, h2, h3⟩ := pairs_mem h
      exact ⟨by simp [h1], h2, fun h => h3 (by simp [h])⟩

def joins (x y : α) (p : α × α) : Bool := decide (p = (x, y) ∨ p = (y, x))

theorem row_count {nb : α → List α} (nd : ∀ x, (nb x).Nodup) {x y : α} {vs : List α} (hv : y ∉ vs) (hxy : x ≠ y) :
    (((nb x).filter fun y => decide (y ∉ vs)).map fun y => (x, y)).countP (joins x y) = if y ∈ nb x then 1 else 0 := by
  rw [List.countP_map]
  have : (joins x y ∘ fun z => (x, z)) = fun z => z == y := by
    funext z
    unfold joins
    simp only [Function.comp, Prod.mk.injEq, true_and, hxy, false_and, or_false]
    exact (Bool.beq_eq_decide_eq z y).symm
  rw [this]
  show List.count y _ = _
  rw [List.Nodup.count ((nd x).filter _)]
  simp [List.mem_filter, hv]

theorem joins_comm (x y : α) : joins x y = joins y x := by
  funext p
  unfold joins
  rw [decide_eq_decide]
  exact or_comm

theorem seen_count {nb : α → List α} {x y : α} {ns vs : List α} (h1 : x ∈ vs) (h2 : x ∉ ns) : (pairs nb vs ns).countP (joins x y) = 0 := by
  rw [List.countP_eq_zero]
  intro p hp hj
  obtain ⟨a, b, c⟩ := pairs_mem hp
  unfold joins at hj
  rcases of_decide_eq_true hj with rfl | rfl
  · exact h2 a
  · exact c h1

theorem pairs_count {nb : α → List α} (nd : ∀ x, (nb x).Nodup) (sy : ∀ x y, y ∈ nb x ↔ x ∈ nb y) {x y : α} (hxy : x ≠ y) : ∀ {ns vs : List α}, ns.Nodup → x ∈ ns → y ∈ ns →
    x ∉ vs → y ∉ vs → (pairs nb vs ns).countP (joins x y) = if y ∈ nb x then 1 else 0
  | [], _, _, h, _, _, _ => by simp at h
  | z :: ns, vs, hn, hx, hy, vx, vy => by
    rw [List.nodup_cons] at hn
    rw [pairs, List.countP_append]
    by_cases h1 : z = x
    · subst h1
      rw [row_count nd vy hxy, seen_count (by simp) hn.1]
      rfl
    · by_cases h2 : z = y
      · subst h2
        rw [joins_comm, row_count nd vx (Ne.symm hxy), seen_count (by simp) hn.1, Nat.add_zero]
        simp only [sy z x]
      · have h0 : (((nb z).filter fun y => decide (y ∉ vs)).map fun y => (z, y)).countP (joins x y) = 0 := by
          rw [List.countP_eq_zero]
          intro p hp hj
          obtain ⟨w, -, rfl⟩ := List.mem_map.1 hp
          unfold joins at hj
          rcases of_decide_eq_true hj with h | h
          · exact h1 (Prod.mk.inj h).1
          · exact h2 (Prod.mk.inj h).1
        rw [h0, Nat.zero_add]
        refine pairs_count nd sy hxy hn.2 ((List.mem_cons.1 hx).resolve_left (Ne.symm h1)) ((List.mem_cons.1 hy).resolve_left (Ne.symm h2)) ?_ ?_
        · simp [vx, Ne.symm h1]
        · simp [vy, Ne.symm h2]

/-! ## theorems -/

/-- C72: after any calls of `AddNode` and `Connect` the graph has the formulas named, each once, and the neighbours of a formula are those it was connected with, each once -/
theorem C72_graph (ops : List (Op α)) : (runOps ops).nodes.Nodup ∧ (∀ x, x ∈ (runOps ops).nodes ↔ Known ops x) ∧
    ∀ x, (neighbours (runOps ops) x).Nodup ∧ ∀ y, y ∈ neighbours (runOps ops) x ↔ Joined ops x y := by
  obtain ⟨h1, h2, h3, h4⟩ := runOps_spec ops
  exact ⟨h1.nodup, h3, fun x => ⟨neighbours_nodup h1 h2 x, fun y => by rw [mem_neighbours h1, h4]⟩⟩

open Classical in
/-- C72: the drawing has one node for each formula of the graph, with its own id, label and style; between two nodes there is one edge if their formulas were connected and none otherwise,
and each edge has the style for its two formulas -/
theorem C72_drawing (G : DGen α σ τ) (ops : List (Op α)) : ∃ keys : List α, keys.Nodup ∧ (∀ x, x ∈ keys ↔ Known ops x) ∧
    (draw G (runOps ops)).nodes = keys.mapIdx (fun i x => ⟨i, G.label x, G.node x, false⟩) ∧
    (∀ e ∈ (draw G (runOps ops)).edges, ∃ x y, keys[e.src]? = some x ∧ keys[e.dst]? = some y ∧ Joined ops x y ∧ e.style = G.edge x y ∧ e.label = "") ∧
    ∀ i j x y, keys[i]? = some x → keys[j]? = some y → i ≠ j → between (draw G (runOps ops)) i j = if Joined ops x y then 1 else 0 := by
  obtain ⟨n1, n2, n3⟩ := C72_graph ops
  obtain ⟨I, k⟩ := dWalk_spec (G := G) (nb := neighbours (runOps ops)) (ns := (runOps ops).nodes) (vs := []) (d := ⟨[], ⟨[], []⟩⟩) (ps := []) ⟨by simp, by simp, by simp, by simp⟩
  have kj : ∀ {x y}, Joined ops x y → Known ops x ∧ Known ops y := by
    rintro x y ⟨-, h | h⟩
    · exact ⟨⟨_, h, .inl rfl⟩, ⟨_, h, .inr rfl⟩⟩
    · exact ⟨⟨_, h, .inr rfl⟩, ⟨_, h, .inl rfl⟩⟩
  have kk : ∀ x, x ∈ (dWalk G (neighbours (runOps ops)) [] (runOps ops).nodes ⟨[], ⟨[], []⟩⟩).keys ↔ Known ops x := fun x => by
    rw [k]
    constructor
    · rintro (h | h | ⟨y, -, h⟩)
      · simp at h
      · exact (n2 x).1 h
      · exact (kj (((n3 y).2 x).1 h)).2
    · exact fun h => .inr (.inl ((n2 x).2 h))
  refine ⟨_, I.nodup, kk, I.nodes, ?_, ?_⟩
  · intro e he
    have he : e ∈ (pairs (neighbours (runOps ops)) [] (runOps ops).nodes).map
        (eOf G (dWalk G (neighbours (runOps ops)) [] (runOps ops).nodes ⟨[], ⟨[], []⟩⟩).keys) := by
      have := I.edges
      rw [List.nil_append] at this
      exact this ▸ he
    obtain ⟨p, hp, rfl⟩ := List.mem_map.1 he
    obtain ⟨m1, m2⟩ := I.mem p hp
    obtain ⟨q1, q2, q3⟩ := pairs_mem hp
    exact ⟨p.1, p.2, List.getElem?_idxOf m1, List.getElem?_idxOf m2, ((n3 _).2 _).1 q2, rfl, rfl⟩
  · intro i j x y hi hj hij
    have hxy : x ≠ y := fun e => hij (nodup_idx I.nodup hi (e ▸ hj))
    unfold between draw
    rw [I.edges, List.nil_append, List.countP_map]
    have hx := (kk x).1 (List.mem_of_getElem? hi)
    have hy := (kk y).1 (List.mem_of_getElem? hj)
    have := pairs_count (nb := neighbours (runOps ops)) (fun x => (n3 x).1) (fun x y => by
      rw [(n3 x).2, (n3 y).2]; exact ⟨fun h => ⟨h.1.symm, h.2.symm⟩, fun h => ⟨h.1.symm, h.2.symm⟩⟩) hxy n1 ((n2 x).2 hx) ((n2 y).2 hy) (vs := []) (by simp) (by simp)
    simp only [(n3 x).2] at this
    rw [← show _ = (if Joined ops x y then 1 else 0) from by convert this]
    refine List.countP_congr fun p hp => ?_
    obtain ⟨m1, m2⟩ := I.mem p hp
    have ix : ∀ {a z : α} {l : Nat}, a ∈ (dWalk G (neighbours (runOps ops)) [] (runOps ops).nodes ⟨[], ⟨[], []⟩⟩).keys →
        (dWalk G (neighbours (runOps ops)) [] (runOps ops).nodes ⟨[], ⟨[], []⟩⟩).keys[l]? = some z →
        ((dWalk G (neighbours (runOps ops)) [] (runOps ops).nodes ⟨[], ⟨[], []⟩⟩).keys.idxOf a = l ↔ a = z) := fun {a z l} ha hl => by
      constructor
      · rintro rfl
        exact Option.some.inj ((List.getElem?_idxOf ha).symm.trans hl)
      · rintro rfl
        exact nodup_idx I.nodup (List.getElem?_idxOf ha) hl
    unfold joins eOf
    obtain ⟨a, b⟩ := p
    simp only [Function.comp, decide_eq_true_eq, Prod.mk.injEq]
    simp only at m1 m2
    rw [ix m1 hi, ix m2 hj, ix m1 hj, ix m2 hi]

/-! ### Examples -/

def exOps : List (Op Nat) := [.con 5 7, .add 3, .con 7 9, .con 7 5, .con 9 9]
def exGen : DGen Nat Unit Nat := ⟨fun x => toString x, fun _ => (), fun x y => 100 * x + y⟩

example : (runOps exOps).nodes = [5, 7, 3, 9] ∧ neighbours (runOps exOps) 7 = [5, 9] := by decide +kernel

/-- not the order of the nodes of the graph: neighbours first -/
example : (draw exGen (runOps exOps)).edges.map (fun e => (e.src, e.dst, e.style)) = [(0, 1, 507), (1, 2, 709)] ∧
    (draw exGen (runOps exOps)).nodes.map (·.label) = ["5", "7", "9", "3"] := by decide +kernel

example : Joined exOps 5 7 ∧ ¬ Joined exOps 5 9 ∧ ¬ Joined exOps 9 9 := by
  refine ⟨⟨by decide, .inl (by simp [exOps])⟩, fun h => ?_, fun h => h.1 rfl⟩
  rcases h.2 with h | h <;> simp [exOps] at h

end Verif.Graph
