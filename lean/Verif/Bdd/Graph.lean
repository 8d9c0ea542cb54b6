import Verif.Bdd.PickProps
import Verif.Graphical.Formula
/-!
# The graphs that are made from a BDD (C69)

Model of /repo/bdd/bdd.go:432-462 (`NodeRepresentation`) and of /repo/bdd/graphical.go on top of the model of the kernel.
-/
namespace Verif.Bdd
open Verif Verif.Tree
set_option linter.unusedSectionVars false
variable {α σ : Type} [DecidableEq α]

/-! ## model -/

/-- bdd/node.go:24-26 `ConstantNode`, 49-53 `InnerNode`; a pointer is a position in the list of nodes. The name is missing if the kernel has no variable of this index. -/
inductive GNode (α : Type) | const (b : Bool) | inner (name : Option α) (lo hi : Nat)
deriving DecidableEq

/-- bdd.go:439, 460: the nodes with the indices that are their keys in `nodeMap`. Each node is entered when it is made, so one list has the nodes and the map. -/
abbrev NM (α : Type) := List (Nat × GNode α)

/-- bdd.go:444: `nodeMap[index]` -/
def NM.find (s : NM α) (i : Nat) : Option Nat := if i ∈ s.map (·.1) then some ((s.map (·.1)).idxOf i) else none

/-- operation.go:345-350, bdd.go:435-438: the entry of `kernelNodeMap`: variable, low and high; missing is a panic at 455 -/
def kernelNode (o : KO) (a i : Nat) : Option (Nat × Nat × Nat) :=
  if i ∈ allNodes o.k a then (o.k.nd i).low.map fun lo => (o.l2v (o.k.nd i).lvl, lo, (o.k.nd i).high) else none

/-- bdd.go:443-462 `buildBDDNode`; the first number bounds the depth of the recursion -/
def build (o : KO) (names : List α) (a : Nat) : Nat → Nat → NM α → Option (Nat × NM α)
  | 0, _, _ => none
  | f + 1, i, s => match s.find i with
    | some p => some (p, s)
    | none =>
      if i = 0 then some (s.length, s ++ [(i, .const false)])
      else if i = 1 then some (s.length, s ++ [(i, .const true)])
      else (kernelNode o a i).bind fun n => (build o names a f n.2.1 s).bind fun l => (build o names a f n.2.2 l.2).bind fun h =>
        some (h.2.length, h.2 ++ [(i, .inner names[n.1]? l.1 h.1)])

/-- bdd.go:432-441 `NodeRepresentation`: the pointer that is returned and the nodes -/
def nodeRep (o : KO) (names : List α) (a : Nat) : Option (Nat × List (GNode α)) :=
  (build o names a (o.k.n + 1) a []).map fun x => (x.1, x.2.map (·.2))

/-- graphical/generator.go:5-13 for indices of nodes, bdd/graphical.go:24-28 -/
structure BGen (σ τ : Type) where
  noNode : σ
  noEdge : τ
  defNode : Option σ
  defEdge : Option τ
  defNeg : Option τ
  compNode : Option (Nat → σ)
  compLabel : Option (Nat → String)
  compEdge : Option (Nat → Nat → τ)
  compNeg : Option (Nat → Nat → τ)

section
variable {ν τ : Type}

/-- graphical/generator.go:16-23 -/
def BGen.nodeStyle (g : BGen ν τ) (i : Nat) : ν := match g.compNode with
  | none => match g.defNode with
    | none => g.noNode
    | some s => s
  | some k => k i

/-- graphical/generator.go:27-32 -/
def BGen.labelOr (g : BGen ν τ) (i : Nat) (d : String) : String := match g.compLabel with
  | none => d
  | some k => k i

/-- graphical/generator.go:36-43 -/
def BGen.edgeStyle (g : BGen ν τ) (i j : Nat) : τ := match g.compEdge with
  | none => match g.defEdge with
    | none => g.noEdge
    | some s => s
  | some k => k i j

/-- bdd/graphical.go:75-82 -/
def BGen.negStyle (g : BGen ν τ) (i j : Nat) : τ := match g.compNeg with
  | none => match g.defNeg with
    | none => g.noEdge
    | some s => s
  | some k => k i j

/-- bdd/graphical.go:113-121 `addNode`. A node has its index as id, so the keys of `index2Node` are the ids of the nodes. -/
def gAdd (g : BGen ν τ) (i : Nat) (label : String) (ns : List (Graphical.Node ν)) : List (Graphical.Node ν) :=
  if i ∈ ns.map (·.id) then ns else ns ++ [⟨i, label, g.nodeStyle i, false⟩]

/-- bdd/graphical.go:85-94 -/
def terminals (g : BGen ν τ) (a : Nat) : List (Graphical.Node ν) :=
  (if a ≠ 1 then [⟨0, g.labelOr 0 "false", g.nodeStyle 0, true⟩] else []) ++ (if a ≠ 0 then [⟨1, g.labelOr 1 "true", g.nodeStyle 1, true⟩] else [])

/-- bdd/graphical.go:95-100 -/
def gNodes (g : BGen ν τ) (o : KO) (names : List String) (a : Nat) : List (Graphical.Node ν) :=
  (allNodes o.k a).foldl (fun ns i => gAdd g i (g.labelOr i (names[o.l2v (o.k.nd i).lvl]?.getD "")) ns) (terminals g a)

/-- bdd/graphical.go:101-110, for one node; `none`: an edge to a node that does not exist -/
def gEdges (g : BGen ν τ) (o : KO) (ns : List (Graphical.Node ν)) (i : Nat) : Option (List (Graphical.Edge τ)) :=
  (o.k.nd i).low.bind fun lo =>
    if i ∈ ns.map (·.id) ∧ lo ∈ ns.map (·.id) ∧ (o.k.nd i).high ∈ ns.map (·.id) then
      some [⟨i, lo, g.negStyle i lo, ""⟩, ⟨i, (o.k.nd i).high, g.edgeStyle i (o.k.nd i).high, ""⟩]
    else none

/-- bdd/graphical.go:33-42, 84-111 `GenerateGraphical` -/
def graph (g : BGen ν τ) (o : KO) (names : List String) (a : Nat) : Option (Graphical.Rep ν τ) :=
  ((allNodes o.k a).mapM (gEdges g o (gNodes g o names a))).map fun es => ⟨gNodes g o names a, es.flatten⟩

end

/-! ## specification -/

/-- the value that one reads in a graph of nodes from a pointer on: at a node of variable `x` one follows the high edge if `x` is true, else the low edge -/
inductive Value (hp : List (GNode α)) (v : α → Bool) : Nat → Bool → Prop
  | const {p : Nat} {b : Bool} : hp[p]? = some (.const b) → Value hp v p b
  | inner {p l h : Nat} {x : α} {b : Bool} : hp[p]? = some (.inner (some x) l h) → Value hp v (if v x then h else l) b → Value hp v p b

/-- the pointers that can be reached from `p` -/
inductive Points (hp : List (GNode α)) (p : Nat) : Nat → Prop
  | self : Points hp p p
  | low {q l h : Nat} {x : Option α} : Points hp p q → hp[q]? = some (.inner x l h) → Points hp p l
  | high {q l h : Nat} {x : Option α} : Points hp p q → hp[q]? = some (.inner x l h) → Points hp p h

/-- the value that one reads in a drawn graph from the node with id `n` on: at a terminal node the value of the constant, at another node one follows the first (negative) or the
second (positive) of its exactly two edges. The nodes have the labels of the generator, without a function for labels the constant and the variable. -/
inductive GValue {ν τ : Type} (g : BGen ν τ) (r : Graphical.Rep ν τ) (v : String → Bool) : Nat → Bool → Prop
  | term {b : Bool} : (⟨b.toNat, g.labelOr b.toNat (if b then "true" else "false"), g.nodeStyle b.toNat, true⟩ : Graphical.Node ν) ∈ r.nodes →
      Graphical.out r b.toNat = [] → GValue g r v b.toNat b
  | inner {n l h : Nat} {x : String} {b : Bool} : (⟨n, g.labelOr n x, g.nodeStyle n, false⟩ : Graphical.Node ν) ∈ r.nodes →
      Graphical.out r n = [⟨n, l, g.negStyle n l, ""⟩, ⟨n, h, g.edgeStyle n h, ""⟩] → GValue g r v (if v x then h else l) b → GValue g r v n b

/-- the nodes that can be reached along the edges -/
inductive GPoints {ν τ : Type} (r : Graphical.Rep ν τ) (n : Nat) : Nat → Prop
  | self : GPoints r n n
  | edge {e : Graphical.Edge τ} : e ∈ r.edges → GPoints r n e.src → GPoints r n e.dst

/-! ## lemmas -/

theorem allNodes_iff {P : Par} {k : K} (hi : Inv P k) {a : Nat} {t : T} (h : Rep k.nd a t) (j : Nat) : j ∈ allNodes k a ↔ 2 ≤ j ∧ Reach k.nd (· = a) j := by
  unfold allNodes
  split
  · next ha =>
    simp only [List.not_mem_nil, false_iff, not_and]
    intro hj hr
    have := reach_leaf ha hr
    omega
  · rw [List.mem_filter, hi.mark_iff h, List.mem_range]
    refine ⟨fun h => h.2, fun hj => ⟨?_, hj⟩⟩
    obtain ⟨h2, hj⟩ := hj
    have : ∀ {y s j}, Rep k.nd y s → Reach k.nd (· = y) j → ∃ s', Rep k.nd j s' := by
      intro y s j hs hr
      induction hr with
      | root e => subst e; exact ⟨_, hs⟩
      | low _ a b ih =>
        obtain ⟨s', ih⟩ := ih
        obtain ⟨lo, l, h, c1, c2, c3, -⟩ := ih.ge2 a
        rw [b] at c1
        cases c1
        exact ⟨_, c2⟩
      | high _ a b ih =>
        obtain ⟨s', ih⟩ := ih
        obtain ⟨lo, l, h, c1, c2, c3, -⟩ := ih.ge2 a
        exact ⟨_, c3⟩
    obtain ⟨s', hs'⟩ := this h hj
    exact (hi.live j h2 (hs'.live h2)).1

theorem reach_rep {nd : Nat → Node} {a : Nat} {t : T} (h : Rep nd a t) {j : Nat} (hr : Reach nd (· = a) j) : ∃ s, Rep nd j s ∧ ∀ l ∈ s.levels, l ∈ t.levels := by
  induction hr with
  | root e => subst e; exact ⟨_, h, fun _ h => h⟩
  | low _ a b ih =>
    obtain ⟨s', ih, il⟩ := ih
    obtain ⟨lo, l, h, c1, c2, c3, rfl⟩ := ih.ge2 a
    rw [b] at c1
    cases c1
    exact ⟨_, c2, fun l hl => il l (by simp [T.levels, hl])⟩
  | high _ a b ih =>
    obtain ⟨s', ih, il⟩ := ih
    obtain ⟨lo, l, h, c1, c2, c3, rfl⟩ := ih.ge2 a
    exact ⟨_, c3, fun l hl => il l (by simp [T.levels, hl])⟩

/-- the node of index `i` -/
def Shape (o : KO) (names : List α) (s : NM α) (i : Nat) (n : GNode α) : Prop :=
  (i = 0 ∧ n = .const false) ∨ (i = 1 ∧ n = .const true) ∨
    (2 ≤ i ∧ ∃ lo pl ph nl nh, (o.k.nd i).low = some lo ∧ n = .inner names[o.l2v (o.k.nd i).lvl]? pl ph ∧ s[pl]? = some (lo, nl) ∧ s[ph]? = some ((o.k.nd i).high, nh))

theorem pre_get {β : Type} {s s' : List β} (h : s <+: s') {j : Nat} {f : β} (e : s[j]? = some f) : s'[j]? = some f := by
  obtain ⟨t, rfl⟩ := h
  have : j < s.length := (List.getElem?_eq_some_iff.1 e).1
  rw [List.getElem?_append_left this, e]

theorem Shape.mono {o : KO} {names : List α} {s s' : NM α} (h : s <+: s') {i : Nat} {n : GNode α} (hs : Shape o names s i n) : Shape o names s' i n := by
  rcases hs with hs | hs | ⟨h2, lo, pl, ph, nl, nh, a, b, c, d⟩
  · exact .inl hs
  · exact .inr (.inl hs)
  · exact .inr (.inr ⟨h2, lo, pl, ph, nl, nh, a, b, pre_get h c, pre_get h d⟩)

structure Gd (o : KO) (names : List α) (a : Nat) (s : NM α) : Prop where
  nd : (s.map (·.1)).Nodup
  ok : ∀ (p i : Nat) n, s[p]? = some (i, n) → Shape o names s i n ∧ Reach o.k.nd (· = a) i

theorem NM.find_some {s : NM α} {i p : Nat} (h : s.find i = some p) : ∃ n, s[p]? = some (i, n) := by
  unfold NM.find at h
  split at h
  · next hm =>
    cases h
    have hlt := List.idxOf_lt_length_of_mem hm
    have e := List.getElem_idxOf hlt
    simp only [List.length_map] at hlt
    rw [List.getElem_map] at e
    exact ⟨s[(s.map (·.1)).idxOf i].2, by rw [List.getElem?_eq_getElem hlt]; exact congrArg some (Prod.ext e rfl)⟩
  · cases h

theorem NM.find_none {s : NM α} {i : Nat} (h : s.find i = none) : i ∉ s.map (·.1) := by
  unfold NM.find at h
  split at h
  · cases h
  · assumption

theorem Gd.push {o : KO} {names : List α} {a : Nat} {s : NM α} (g : Gd o names a s) {i : Nat} {n : GNode α} (hi : i ∉ s.map (·.1))
    (hs : Shape o names (s ++ [(i, n)]) i n) (hr : Reach o.k.nd (· = a) i) : Gd o names a (s ++ [(i, n)]) where
  nd := by
    rw [List.map_append, List.nodup_append]
    refine ⟨g.nd, by simp, fun x hx y hy => ?_⟩
    simp only [List.map_cons, List.map_nil, List.mem_singleton] at hy
    subst hy
    rintro rfl
    exact hi hx
  ok := fun p j m h => by
    rw [List.getElem?_append] at h
    split at h
    · obtain ⟨h1, h2⟩ := g.ok p j m h
      exact ⟨h1.mono (List.prefix_append _ _), h2⟩
    · rw [List.getElem?_singleton] at h
      split at h
      · cases h; exact ⟨hs, hr⟩
      · cases h

/-- `build` gives the node of the index, and keeps the nodes that exist; `N`: the nodes that are not built yet have a key that is reachable only from `i` -/
theorem build_spec {P : Par} {o : KO} {names : List α} (hi : Inv P o.k) {a : Nat} {ta : T} (hta : Rep o.k.nd a ta) :
    ∀ {f : Nat} {t : T} {i m : Nat} {s : NM α}, Gd o names a s → Rep o.k.nd i t → Ord o.k.n m t → m ≤ o.k.n → o.k.n - m < f → Reach o.k.nd (· = a) i →
      ∃ p s', build o names a f i s = some (p, s') ∧ Gd o names a s' ∧ s <+: s' ∧ (∃ n, s'[p]? = some (i, n)) ∧
        ∀ j ∈ s'.map (·.1), j ∈ s.map (·.1) ∨ Reach o.k.nd (· = i) j
  | 0, _, _, _, _, _, _, _, _, hf, _ => by omega
  | f + 1, t, i, m, s, g, ht, hord, hmn, hf, hr => by
    unfold build
    cases hfd : s.find i with
    | some p => exact ⟨p, s, rfl, g, List.prefix_rfl, NM.find_some hfd, fun j hj => .inl hj⟩
    | none =>
      have hn := NM.find_none hfd
      have hnew : ∀ n : GNode α, ∃ m, (s ++ [(i, n)])[s.length]? = some (i, m) := fun n => ⟨n, by simp⟩
      have hkey : ∀ n : GNode α, ∀ j ∈ (s ++ [(i, n)]).map (·.1), j ∈ s.map (·.1) ∨ Reach o.k.nd (· = i) j := fun n j hj => by
        rw [List.map_append, List.mem_append] at hj
        rcases hj with hj | hj
        · exact .inl hj
        · simp only [List.map_cons, List.map_nil, List.mem_singleton] at hj
          exact .inr (.root hj)
      simp only
      by_cases h0 : i = 0
      · rw [if_pos h0]
        exact ⟨_, _, rfl, g.push hn (.inl ⟨h0, rfl⟩) hr, List.prefix_append _ _, hnew _, hkey _⟩
      · rw [if_neg h0]
        by_cases h1 : i = 1
        · rw [if_pos h1]
          exact ⟨_, _, rfl, g.push hn (.inr (.inl ⟨h1, rfl⟩)) hr, List.prefix_append _ _, hnew _, hkey _⟩
        · rw [if_neg h1]
          have h2 : 2 ≤ i := by omega
          obtain ⟨lo, tl, th, c1, c2, c3, rfl⟩ := ht.ge2 h2
          obtain ⟨o1, o2, o3, o4, o5⟩ := hord
          have hk : kernelNode o a i = some (o.l2v (o.k.nd i).lvl, lo, (o.k.nd i).high) := by
            unfold kernelNode
            rw [if_pos ((allNodes_iff hi hta i).2 ⟨h2, hr⟩), c1]
            rfl
          obtain ⟨pl, s1, b1, g1, q1, ⟨nl, e1⟩, k1⟩ := build_spec hi hta (f := f) g c2 o4 (by omega) (by omega) (.low hr h2 c1)
          obtain ⟨ph, s2, b2, g2, q2, ⟨nh, e2⟩, k2⟩ := build_spec hi hta (f := f) g1 c3 o5 (by omega) (by omega) (.high hr h2 c1)
          rw [hk]
          simp only [Option.bind_some, b1, b2]
          have hir : ∀ j, Reach o.k.nd (· = lo) j ∨ Reach o.k.nd (· = (o.k.nd i).high) j → Reach o.k.nd (· = i) j := fun j hj =>
            (reach_node h2 c1).2 (.inr hj)
          have hlv : ∀ {c tc}, Rep o.k.nd c tc → Ord o.k.n ((o.k.nd i).lvl + 1) tc → ¬ Reach o.k.nd (· = c) i := fun {c tc} hc hoc hh => by
            obtain ⟨s', w1, w2⟩ := reach_rep hc hh
            have := w1.fun (.node h2 c1 c2 c3)
            subst this
            have := (hoc.levels _ (w2 _ (List.mem_cons_self ..))).1
            omega
          have hn2 : i ∉ s2.map (·.1) := fun hj => by
            rcases k2 i hj with hj | hj
            · rcases k1 i hj with hj | hj
              · exact hn hj
              · exact hlv c2 o4 hj
            · exact hlv c3 o5 hj
          refine ⟨_, _, rfl, g2.push hn2 (.inr (.inr ⟨h2, lo, pl, ph, nl, nh, c1, rfl, ?_, ?_⟩)) hr, (q1.trans q2).trans (List.prefix_append _ _), ⟨.inner names[o.l2v (o.k.nd i).lvl]? pl ph, by simp⟩, fun j hj => ?_⟩
          · exact pre_get (List.prefix_append _ _) (pre_get q2 e1)
          · exact pre_get (List.prefix_append _ _) e2
          · rw [List.map_append, List.mem_append] at hj
            rcases hj with hj | hj
            · rcases k2 j hj with hj | hj
              · rcases k1 j hj with hj | hj
                · exact .inl hj
                · exact .inr (hir j (.inl hj))
              · exact .inr (hir j (.inr hj))
            · simp only [List.map_cons, List.map_nil, List.mem_singleton] at hj
              exact .inr (.root hj)

theorem get_snd {s : NM α} {p i : Nat} {n : GNode α} (h : s[p]? = some (i, n)) : (s.map (·.2))[p]? = some n := by
  rw [List.getElem?_map, h]; rfl

theorem Gd.value {o : KO} {names : List α} {a : Nat} {s : NM α} (g : Gd o names a s) (v : α → Bool) {i : Nat} {t : T} (ht : Rep o.k.nd i t) :
    (∀ l ∈ t.levels, ∃ x, names[o.l2v l]? = some x) → ∀ {p : Nat} {n : GNode α}, s[p]? = some (i, n) →
      Value (s.map (·.2)) v p (t.eval fun l => byName names v (o.l2v l)) := by
  induction ht with
  | ff =>
    intro _ p n hp
    rcases (g.ok p 0 n hp).1 with ⟨-, rfl⟩ | ⟨h, -⟩ | ⟨h, -⟩
    · exact .const (get_snd hp)
    · cases h
    · omega
  | tt =>
    intro _ p n hp
    rcases (g.ok p 1 n hp).1 with ⟨h, -⟩ | ⟨-, rfl⟩ | ⟨h, -⟩
    · cases h
    · exact .const (get_snd hp)
    · omega
  | @node i lo tl th h1 h2 h3 h4 ih1 ih2 =>
    intro hl p n hp
    rcases (g.ok p i n hp).1 with ⟨h, -⟩ | ⟨h, -⟩ | ⟨-, lo', pl, ph, nl, nh, a1, rfl, a2, a3⟩
    · omega
    · omega
    · rw [h2] at a1
      cases a1
      obtain ⟨x, hx⟩ := hl (o.k.nd i).lvl (by simp [T.levels])
      rw [hx] at hp
      refine .inner (get_snd hp) ?_
      have hb : byName names v (o.l2v (o.k.nd i).lvl) = v x := by unfold byName; rw [hx]; rfl
      simp only [T.eval, hb]
      cases v x
      · simpa using ih1 (fun l h => hl l (by simp [T.levels, h])) a2
      · simpa using ih2 (fun l h => hl l (by simp [T.levels, h])) a3

theorem Value.fun {hp : List (GNode α)} {v : α → Bool} {p : Nat} {b b' : Bool} (h : Value hp v p b) (h' : Value hp v p b') : b = b' := by
  induction h with
  | const e =>
    cases h' with
    | const e' => rw [e] at e'; cases e'; rfl
    | inner e' _ => rw [e] at e'; cases e'
  | inner e _ ih =>
    cases h' with
    | const e' => rw [e] at e'; cases e'
    | inner e' w => rw [e] at e'; cases e'; exact ih w

theorem eval_congr : ∀ {t : T} {ρ ρ' : Nat → Bool}, (∀ l ∈ t.levels, ρ l = ρ' l) → t.eval ρ = t.eval ρ'
  | .leaf _, _, _, _ => rfl
  | .node w l h, ρ, ρ', e => by
    have e0 := e w (by simp [T.levels])
    have e1 := eval_congr (t := l) (ρ := ρ) (ρ' := ρ') fun x hx => e x (by simp [T.levels, hx])
    have e2 := eval_congr (t := h) (ρ := ρ) (ρ' := ρ') fun x hx => e x (by simp [T.levels, hx])
    simp only [T.eval, e0, e1, e2]

theorem Gd.idx {o : KO} {names : List α} {a : Nat} {s : NM α} (g : Gd o names a s) {p q i : Nat} {n m : GNode α} (hp : s[p]? = some (i, n)) (hq : s[q]? = some (i, m)) : p = q := by
  obtain ⟨p1, p2⟩ := List.getElem?_eq_some_iff.1 hp
  obtain ⟨q1, q2⟩ := List.getElem?_eq_some_iff.1 hq
  have : (s.map (·.1))[p]'(by simpa using p1) = (s.map (·.1))[q]'(by simpa using q1) := by
    simp [p2, q2]
  exact (g.nd.getElem_inj_iff).1 this

/-! ## theorems -/

/-- C69: `NodeRepresentation` of a BDD returns a graph in which the value read from the returned pointer is the one of the function of the BDD; every node can be reached; different
nodes have different functions; along an edge the order of the variables increases. -/
theorem C69_nodes {P : Par} {Q : RPar} (hgr : ∀ s, s < P.grow s) (h : σ → Bool × σ) (nnf : Fm α → Fm α) (num sz : Nat)
    (hsz : 2 ≤ sz) (order : List α) (ops : List (Op α σ)) (hok : OpsOk nnf ops) {st : St α}
    (hrun : runNew P h nnf num sz order ops = some st) (hpos : ∀ t u v, num ≤ t → Q.pos t u v < Q.cells t)
    {i a : Nat} {o : KO} (hr : Reads P Q num ops st i o) (ha : st.out[i]? = some (.bdd a)) :
    ∃ (p : Nat) (hp : List (GNode α)), nodeRep o st.w.names a = some (p, hp) ∧
      (∀ v, Value hp v p ((sems ops).getD i (fun _ => false) v)) ∧
      (∀ q, q < hp.length ↔ Points hp p q) ∧
      (∀ q q', q < hp.length → q' < hp.length → (∀ v, ∃ b, Value hp v q b ∧ Value hp v q' b) → q = q') ∧
      (∀ (q q' : Nat) (x y : Option α) (l l' h h' : Nat), hp[q]? = some (GNode.inner x l h) → hp[q']? = some (GNode.inner y l' h') → q' = l ∨ q' = h →
        ∃ j j' : Nat, j < j' ∧ (variableOrder o st.w.names)[j]? = some x ∧ (variableOrder o st.w.names)[j']? = some y) := by
  obtain ⟨ho, hnd, hlen, hn, t, ht, hg⟩ := hr.den hgr hsz hok hrun hpos ha
  rw [← hn] at hlen
  have hnm := levels_named ho hnd hlen ht hg
  obtain ⟨p, s, b1, g, -, ⟨n, e⟩, -⟩ := build_spec (names := st.w.names) ho.inv ht (f := o.k.n + 1) (s := []) ⟨by simp, by simp⟩ ht (ho.inv.ord ht) (Nat.zero_le _) (by omega) (.root rfl)
  have hkey : ∀ q, q < s.length → ∃ i n t', s[q]? = some (i, n) ∧ Reach o.k.nd (· = a) i ∧ Rep o.k.nd i t' ∧ ∀ l ∈ t'.levels, ∃ x, st.w.names[o.l2v l]? = some x := fun q hq => by
    obtain ⟨i, n, hs'⟩ : ∃ i n, s[q]? = some (i, n) := ⟨s[q].1, s[q].2, List.getElem?_eq_getElem hq⟩
    have hre := (g.ok q i n hs').2
    obtain ⟨t', w1, w2⟩ := reach_rep ht hre
    exact ⟨i, n, t', hs', hre, w1, fun l hl => hnm l (w2 l hl)⟩
  refine ⟨p, s.map (·.2), by unfold nodeRep; rw [b1]; rfl, fun v => ?_, fun q => ?_, fun q q' hq hq' hv => ?_, ?_⟩
  · rw [← hg _ v (byName_ok _ v)]
    exact g.value v ht hnm e
  · constructor
    · intro hq
      simp only [List.length_map] at hq
      obtain ⟨j, n', t', hs, hre, -, -⟩ := hkey q hq
      have key : ∃ q n', s[q]? = some (j, n') ∧ Points (s.map (·.2)) p q := by
        clear hs
        induction hre with
        | root e' => subst e'; exact ⟨p, n, e, .self⟩
        | low _ x1 x2 ih =>
          obtain ⟨q, n', y1, y2⟩ := ih
          rcases (g.ok _ _ _ y1).1 with ⟨z, -⟩ | ⟨z, -⟩ | ⟨-, lo', pl, ph, nl, nh, a1, rfl, a2, a3⟩
          · omega
          · omega
          · rw [x2] at a1; cases a1
            exact ⟨pl, nl, a2, .low y2 (get_snd y1)⟩
        | high _ x1 x2 ih =>
          obtain ⟨q, n', y1, y2⟩ := ih
          rcases (g.ok _ _ _ y1).1 with ⟨z, -⟩ | ⟨z, -⟩ | ⟨-, lo', pl, ph, nl, nh, a1, rfl, a2, a3⟩
          · omega
          · omega
          · exact ⟨ph, nh, a3, .high y2 (get_snd y1)⟩
      obtain ⟨q', n'', y1, y2⟩ := key
      rw [g.idx hs y1]
      exact y2
    · intro hq
      have aux : ∀ {q l h x}, (s.map (·.2))[q]? = some (GNode.inner x l h) → l < s.length ∧ h < s.length := fun {q l h x} hh => by
        rw [List.getElem?_map] at hh
        cases hs : s[q]? with
        | none => rw [hs] at hh; cases hh
        | some z =>
          rw [hs] at hh
          obtain ⟨j, m⟩ := z
          simp only [Option.map_some, Option.some.injEq] at hh
          subst hh
          rcases (g.ok _ _ _ hs).1 with ⟨-, z⟩ | ⟨-, z⟩ | ⟨-, lo', pl, ph, nl, nh, a1, z, a2, a3⟩
          · cases z
          · cases z
          · cases z
            exact ⟨(List.getElem?_eq_some_iff.1 a2).1, (List.getElem?_eq_some_iff.1 a3).1⟩
      rw [List.length_map]
      induction hq with
      | self => exact (List.getElem?_eq_some_iff.1 e).1
      | low _ hh _ => exact (aux hh).1
      | high _ hh _ => exact (aux hh).2
  · simp only [List.length_map] at hq hq'
    obtain ⟨j, m, tj, s1, -, s3, s4⟩ := hkey q hq
    obtain ⟨j', m', tj', s1', -, s3', s4'⟩ := hkey q' hq'
    have : tj = tj' := by
      refine (ho.inv.ord s3).canon _ _ (ho.inv.ord s3') fun ρ => ?_
      obtain ⟨v, hv'⟩ := ofPos hnd fun x => ρ (o.v2l x)
      obtain ⟨b, u1, u2⟩ := hv v
      have e1 := (g.value v s3 s4 s1).fun u1
      have e2 := (g.value v s3' s4' s1').fun u2
      have hag : ∀ {t'' : T}, Ord o.k.n 0 t'' → (∀ l ∈ t''.levels, ∃ x, st.w.names[o.l2v l]? = some x) →
          t''.eval ρ = t''.eval fun l => byName st.w.names v (o.l2v l) := fun {t''} oo w => eval_congr fun l hl => by
        obtain ⟨x, hx⟩ := w l hl
        have := hv' _ _ hx
        rw [(ho.tabs.vl l (oo.levels l hl).2).2] at this
        show ρ l = byName _ v (o.l2v l)
        unfold byName
        rw [hx, this]
        rfl
      rw [hag (ho.inv.ord s3) s4, hag (ho.inv.ord s3') s4', e1, e2]
    subst this
    have := ho.inv.idx s3 s3'
    subst this
    exact g.idx s1 s1'
  · intro q q' x y l l' h h' hq hq' hor
    have inv : ∀ {q l h x}, (s.map (·.2))[q]? = some (GNode.inner x l h) → ∃ i, s[q]? = some (i, GNode.inner x l h) := fun {q l h x} hh => by
      rw [List.getElem?_map] at hh
      cases hs : s[q]? with
      | none => rw [hs] at hh; cases hh
      | some z =>
        rw [hs] at hh
        obtain ⟨j, m⟩ := z
        simp only [Option.map_some, Option.some.injEq] at hh
        subst hh
        exact ⟨j, hs⟩
    obtain ⟨j, hj⟩ := inv hq
    obtain ⟨j', hj'⟩ := inv hq'
    have sh := (g.ok _ _ _ hj).1
    have sh' := (g.ok _ _ _ hj').1
    rcases sh with ⟨-, z⟩ | ⟨-, z⟩ | ⟨u2, lo, pl, ph, nl, nh, a1, z, a2, a3⟩
    · cases z
    · cases z
    rcases sh' with ⟨-, z'⟩ | ⟨-, z'⟩ | ⟨u2', lo', pl', ph', nl', nh', a1', z', a2', a3'⟩
    · cases z'
    · cases z'
    cases z
    cases z'
    obtain ⟨tj, w1, w2⟩ := reach_rep ht (g.ok _ _ _ hj).2
    obtain ⟨lo2, tl, th, c1, c2, c3, rfl⟩ := w1.ge2 u2
    rw [a1] at c1
    cases c1
    obtain ⟨o1, o2, o3, o4, o5⟩ := ho.inv.ord w1
    have hch : ∀ {c tc}, Rep o.k.nd c tc → Ord o.k.n ((o.k.nd j).lvl + 1) tc → j' = c → (o.k.nd j).lvl < (o.k.nd j').lvl ∧ (o.k.nd j').lvl < o.k.n := fun {c tc} d1 d2 d3 => by
      subst d3
      obtain ⟨_, _, _, _, _, _, rfl⟩ := d1.ge2 u2'
      exact ⟨by have := d2.1; omega, d2.2.1⟩
    have hlt : (o.k.nd j).lvl < (o.k.nd j').lvl ∧ (o.k.nd j').lvl < o.k.n := by
      rcases hor with rfl | rfl
      · rw [hj'] at a2; cases a2; exact hch c2 o4 rfl
      · rw [hj'] at a3; simp only [Option.some.injEq, Prod.mk.injEq] at a3; exact hch c3 o5 a3.1
    have hvo : ∀ l, l < o.k.n → (variableOrder o st.w.names)[l]? = some st.w.names[o.l2v l]? := fun l hl => by
      unfold variableOrder
      rw [List.getElem?_map, List.getElem?_range hl]
      rfl
    exact ⟨_, _, hlt.1, hvo _ o2, hvo _ hlt.2⟩

section
variable {ν τ : Type}

/-- the node of an index -/
def gNode (g : BGen ν τ) (o : KO) (names : List String) (i : Nat) : Graphical.Node ν :=
  ⟨i, g.labelOr i (names[o.l2v (o.k.nd i).lvl]?.getD ""), g.nodeStyle i, false⟩

theorem foldl_gAdd (g : BGen ν τ) (o : KO) (names : List String) : ∀ (L : List Nat) (ns : List (Graphical.Node ν)), L.Nodup → (∀ i ∈ L, i ∉ ns.map (·.id)) →
    L.foldl (fun ns i => gAdd g i (g.labelOr i (names[o.l2v (o.k.nd i).lvl]?.getD "")) ns) ns = ns ++ L.map (gNode g o names)
  | [], ns, _, _ => by simp
  | i :: L, ns, hn, hd => by
    have h1 : gAdd g i (g.labelOr i (names[o.l2v (o.k.nd i).lvl]?.getD "")) ns = ns ++ [gNode g o names i] := by
      unfold gAdd
      rw [if_neg (hd i (by simp))]
      rfl
    rw [List.foldl_cons, h1, foldl_gAdd g o names L _ (List.nodup_cons.1 hn).2 fun j hj => ?_]
    · simp
    · rw [List.map_append, List.mem_append]
      rintro (h | h)
      · exact hd j (by simp [hj]) h
      · simp only [gNode, List.map_cons, List.map_nil, List.mem_singleton] at h
        subst h
        exact (List.nodup_cons.1 hn).1 hj

/-- the two edges of an index -/
def gEdge2 (g : BGen ν τ) (o : KO) (i : Nat) : List (Graphical.Edge τ) :=
  [⟨i, (o.k.nd i).low.getD 0, g.negStyle i ((o.k.nd i).low.getD 0), ""⟩, ⟨i, (o.k.nd i).high, g.edgeStyle i (o.k.nd i).high, ""⟩]

theorem out_edges (g : BGen ν τ) (o : KO) (ns : List (Graphical.Node ν)) (n : Nat) : ∀ (L : List Nat), L.Nodup →
    Graphical.out ⟨ns, (L.map (gEdge2 g o)).flatten⟩ n = if n ∈ L then gEdge2 g o n else []
  | [], _ => by simp [Graphical.out]
  | i :: L, hn => by
    have ih := out_edges g o ns n L (List.nodup_cons.1 hn).2
    unfold Graphical.out at ih ⊢
    simp only at ih ⊢
    rw [List.map_cons, List.flatten_cons, List.filter_append, ih]
    by_cases h : i = n
    · subst h
      rw [if_neg (List.nodup_cons.1 hn).1, if_pos (by simp)]
      simp [gEdge2]
    · have h' : ¬ n = i := fun e => h e.symm
      simp [gEdge2, h, h']

theorem allNodes_nodup (k : K) (a : Nat) : (allNodes k a).Nodup := by
  unfold allNodes
  split
  · simp
  · exact List.nodup_range.filter _

theorem graph_eq {P : Par} (g : BGen ν τ) {o : KO} (hi : Inv P o.k) (names : List String) {a : Nat} {t : T} (ht : Rep o.k.nd a t) :
    graph g o names a = some ⟨terminals g a ++ (allNodes o.k a).map (gNode g o names), ((allNodes o.k a).map (gEdge2 g o)).flatten⟩ := by
  have hids : ∀ i ∈ (terminals g a).map (·.id), i < 2 := by
    intro i hi
    unfold terminals at hi
    simp only [List.map_append, List.mem_append] at hi
    rcases hi with hi | hi <;> (split at hi <;> simp at hi <;> omega)
  have hN : gNodes g o names a = terminals g a ++ (allNodes o.k a).map (gNode g o names) :=
    foldl_gAdd g o names _ _ (allNodes_nodup _ _) fun i h hh => by
      have := hids i hh
      have := ((allNodes_iff hi ht i).1 h).1
      omega
  have hmem : ∀ j, Reach o.k.nd (· = a) j → 2 ≤ a → j ∈ (gNodes g o names a).map (·.id) := fun j hj h2 => by
    rw [hN, List.map_append, List.mem_append]
    by_cases hj2 : 2 ≤ j
    · exact .inr (List.mem_map.2 ⟨_, List.mem_map_of_mem ((allNodes_iff hi ht j).2 ⟨hj2, hj⟩), rfl⟩)
    · left
      unfold terminals
      rw [if_pos (by omega), if_pos (by omega)]
      rcases (by omega : j = 0 ∨ j = 1) with rfl | rfl <;> simp
  have hE : ∀ i ∈ allNodes o.k a, gEdges g o (gNodes g o names a) i = some (gEdge2 g o i) := fun i h => by
    obtain ⟨h2, hre⟩ := (allNodes_iff hi ht i).1 h
    have ha2 : 2 ≤ a := by
      by_contra hh
      have := reach_leaf (by omega) hre
      omega
    obtain ⟨s, w1, -⟩ := reach_rep ht hre
    obtain ⟨lo, _, _, c1, c2, c3, -⟩ := w1.ge2 h2
    unfold gEdges gEdge2
    rw [c1, Option.bind_some, if_pos ⟨hmem _ hre ha2, hmem _ (.low hre h2 c1) ha2, hmem _ (.high hre h2 c1) ha2⟩]
    rfl
  unfold graph
  rw [mapM_some [] fun i h => ⟨_, hE i h⟩, hN]
  simp only [Option.map_some, Option.some.injEq, Graphical.Rep.mk.injEq, true_and]
  congr 1
  refine List.map_congr_left fun i h => ?_
  rw [← hN, hE i h]
  rfl

theorem GValue.points {g : BGen ν τ} {r : Graphical.Rep ν τ} {v : String → Bool} {a n : Nat} {b : Bool} (h : GValue g r v n b) : GPoints r a n → GPoints r a b.toNat := by
  induction h with
  | term _ _ => exact fun h => h
  | @inner n l h x b h1 h2 _ ih =>
    intro hp
    refine ih ?_
    have hm : ∀ e ∈ Graphical.out r n, GPoints r a e.dst := fun e he => by
      unfold Graphical.out at he
      obtain ⟨he, hs⟩ := List.mem_filter.1 he
      simp only [decide_eq_true_eq] at hs
      exact .edge he (hs ▸ hp)
    rw [h2] at hm
    cases v x
    · exact hm ⟨n, l, g.negStyle n l, ""⟩ (by simp)
    · exact hm ⟨n, h, g.edgeStyle n h, ""⟩ (by simp)

/-- C69: `GenerateGraphical` draws the BDD: the value read in the graph from the node of the BDD is the one of its function; every node is drawn once and can be reached. -/
theorem C69_graph {P : Par} {Q : RPar} (hgr : ∀ s, s < P.grow s) (h : σ → Bool × σ) (nnf : Fm String → Fm String) (num sz : Nat)
    (hsz : 2 ≤ sz) (order : List String) (ops : List (Op String σ)) (hok : OpsOk nnf ops) {st : St String}
    (hrun : runNew P h nnf num sz order ops = some st) (hpos : ∀ t u v, num ≤ t → Q.pos t u v < Q.cells t)
    {i a : Nat} {o : KO} (hr : Reads P Q num ops st i o) (ha : st.out[i]? = some (.bdd a)) (g : BGen ν τ) :
    ∃ r, graph g o st.w.names a = some r ∧ (∀ v, GValue g r v a ((sems ops).getD i (fun _ => false) v)) ∧
      (r.nodes.map (·.id)).Nodup ∧ (∀ n, n ∈ r.nodes.map (·.id) ↔ GPoints r a n) := by
  obtain ⟨ho, hnd, hlen, hn, t, ht, hg⟩ := hr.den hgr hsz hok hrun hpos ha
  rw [← hn] at hlen
  have hnm := levels_named ho hnd hlen ht hg
  have ho' := ho.inv.ord ht
  refine ⟨_, graph_eq g ho.inv st.w.names ht, ?_⟩
  generalize hrr : (⟨terminals g a ++ (allNodes o.k a).map (gNode g o st.w.names), ((allNodes o.k a).map (gEdge2 g o)).flatten⟩ : Graphical.Rep ν τ) = r
  have hnodes : r.nodes = terminals g a ++ (allNodes o.k a).map (gNode g o st.w.names) := by rw [← hrr]
  have hout : ∀ n, Graphical.out r n = if n ∈ allNodes o.k a then gEdge2 g o n else [] := fun n => by
    rw [← hrr]
    exact out_edges g o _ n _ (allNodes_nodup _ _)
  have hterm : ∀ b : Bool, a ≠ (!b).toNat → (⟨b.toNat, g.labelOr b.toNat (if b then "true" else "false"), g.nodeStyle b.toNat, true⟩ : Graphical.Node ν) ∈ r.nodes := fun b hb => by
    rw [hnodes, List.mem_append]
    left
    unfold terminals
    cases b
    · rw [if_pos (by simpa using hb)]; simp
    · rw [if_pos (c := a ≠ 0) (by simpa using hb)]; simp
  have hleaf : ∀ b : Bool, b.toNat ∉ allNodes o.k a := fun b hb => by
    have := ((allNodes_iff ho.inv ht _).1 hb).1
    cases b <;> simp at this
  have hval : ∀ v, ∀ {j : Nat} {s : T}, Rep o.k.nd j s → Reach o.k.nd (· = a) j → GValue g r v j (s.eval fun l => byName st.w.names v (o.l2v l)) := by
    intro v j s hs
    induction hs with
    | ff =>
      intro hre
      refine .term (b := false) (hterm false ?_) (by rw [hout, if_neg (hleaf false)])
      rintro rfl
      have := reach_leaf (by decide) hre
      cases this
    | tt =>
      intro hre
      refine .term (b := true) (hterm true ?_) (by rw [hout, if_neg (hleaf true)])
      rintro rfl
      have := reach_leaf (by decide) hre
      cases this
    | @node j lo tl th h1 h2 h3 h4 ih1 ih2 =>
      intro hre
      have hm := (allNodes_iff ho.inv ht j).2 ⟨h1, hre⟩
      obtain ⟨s', w1, w2⟩ := reach_rep ht hre
      obtain ⟨_, _, _, _, _, _, rfl⟩ := w1.ge2 h1
      obtain ⟨x, hx⟩ := hnm _ (w2 _ (List.mem_cons_self ..))
      refine .inner (x := x) (l := lo) (h := (o.k.nd j).high) ?_ ?_ ?_
      · rw [hnodes, List.mem_append]
        refine .inr (List.mem_map.2 ⟨j, hm, ?_⟩)
        unfold gNode
        rw [hx]
        rfl
      · rw [hout, if_pos hm]
        unfold gEdge2
        rw [h2]
        rfl
      · have hb : byName st.w.names v (o.l2v (o.k.nd j).lvl) = v x := by unfold byName; rw [hx]; rfl
        simp only [T.eval, hb]
        cases v x
        · simpa using ih1 (.low hre h1 h2)
        · simpa using ih2 (.high hre h1 h2)
  have hsem : ∀ v, GValue g r v a ((sems ops).getD i (fun _ => false) v) := fun v => by
    rw [← hg _ v (byName_ok _ v)]
    exact hval v ht (.root rfl)
  have hids : ∀ n, n ∈ r.nodes.map (·.id) ↔ n ∈ (terminals g a).map (·.id) ∨ n ∈ allNodes o.k a := fun n => by
    rw [hnodes, List.map_append, List.mem_append, List.map_map]
    have : (allNodes o.k a).map ((fun x : Graphical.Node ν => x.id) ∘ gNode g o st.w.names) = allNodes o.k a := by
      conv_rhs => rw [← List.map_id (allNodes o.k a)]
      exact List.map_congr_left fun _ _ => rfl
    rw [this]
  have htid : ∀ n, n ∈ (terminals g a).map (·.id) ↔ ∃ b : Bool, n = b.toNat ∧ a ≠ (!b).toNat := fun n => by
    unfold terminals
    by_cases h0 : a = 0
    · subst h0; simp
    · by_cases h1 : a = 1
      · subst h1; simp
      · simp [h0, h1]
  refine ⟨hsem, ?_, fun n => ⟨fun hn0 => ?_, fun hn' => ?_⟩⟩
  · have e : r.nodes.map (·.id) = (terminals g a).map (·.id) ++ allNodes o.k a := by
      rw [hnodes, List.map_append, List.map_map]
      congr 1
      conv_rhs => rw [← List.map_id (allNodes o.k a)]
      exact List.map_congr_left fun _ _ => rfl
    rw [e, List.nodup_append]
    refine ⟨?_, allNodes_nodup _ _, fun x hx y hy => ?_⟩
    · unfold terminals
      by_cases h0 : a = 0
      · subst h0; simp
      · by_cases h1 : a = 1
        · subst h1; simp
        · simp [h0, h1]
    · obtain ⟨b, rfl, -⟩ := (htid x).1 hx
      rintro rfl
      exact hleaf b hy
  · rcases (hids n).1 hn0 with hn' | hn'
    · obtain ⟨b, rfl, hb⟩ := (htid n).1 hn'
      by_cases hv : ∃ v, (sems ops).getD i (fun _ => false) v = b
      · obtain ⟨v, hv⟩ := hv
        have := (hsem v).points (a := a) .self
        rw [hv] at this
        exact this
      · refine absurd ?_ hb
        have hc : t = .leaf (!b) := by
          refine ho'.const fun ρ => ?_
          obtain ⟨v, hv'⟩ := ofPos hnd fun x => ρ (o.v2l x)
          have h1 : (sems ops).getD i (fun _ => false) v = !b := by
            cases h : (sems ops).getD i (fun _ => false) v <;> cases b <;> first | rfl | exact absurd ⟨v, h⟩ hv
          rw [← h1, ← hg _ v hv']
          exact ho'.agree fun l _ hl => by rw [(ho.tabs.vl l hl).2]
        subst hc
        have := ht.leaf_idx
        rw [this]
        cases b <;> rfl
    · obtain ⟨h2, hre⟩ := (allNodes_iff ho.inv ht n).1 hn'
      clear hn' h2 hn0
      induction hre with
      | root e => subst e; exact .self
      | @low j lo hj h2 hl ih =>
        have hm := (allNodes_iff ho.inv ht j).2 ⟨h2, hj⟩
        have he : (⟨j, (o.k.nd j).low.getD 0, g.negStyle j ((o.k.nd j).low.getD 0), ""⟩ : Graphical.Edge τ) ∈ r.edges := by
          rw [← hrr]
          exact List.mem_flatten.2 ⟨_, List.mem_map_of_mem hm, by simp [gEdge2]⟩
        have := GPoints.edge he ih
        rw [hl] at this
        exact this
      | @high j lo hj h2 hl ih =>
        have hm := (allNodes_iff ho.inv ht j).2 ⟨h2, hj⟩
        have he : (⟨j, (o.k.nd j).high, g.edgeStyle j (o.k.nd j).high, ""⟩ : Graphical.Edge τ) ∈ r.edges := by
          rw [← hrr]
          exact List.mem_flatten.2 ⟨_, List.mem_map_of_mem hm, by simp [gEdge2]⟩
        exact GPoints.edge he ih
  · rw [hids]
    have key : Reach o.k.nd (· = a) n := by
      induction hn' with
      | self => exact .root rfl
      | @edge e he _ ih =>
        rw [← hrr] at he
        obtain ⟨l, hl, he⟩ := List.mem_flatten.1 he
        obtain ⟨j, hj, rfl⟩ := List.mem_map.1 hl
        obtain ⟨h2, hre⟩ := (allNodes_iff ho.inv ht j).1 hj
        obtain ⟨s, w1, -⟩ := reach_rep ht hre
        obtain ⟨lo, _, _, c1, -⟩ := w1.ge2 h2
        simp only [gEdge2, List.mem_cons, List.not_mem_nil, or_false] at he
        rcases he with rfl | rfl
        · simp only [c1, Option.getD_some]
          exact .low hre h2 c1
        · exact .high hre h2 c1
    by_cases h2 : 2 ≤ n
    · exact .inr ((allNodes_iff ho.inv ht n).2 ⟨h2, key⟩)
    · refine .inl ((htid n).2 ?_)
      rcases (by omega : n = 0 ∨ n = 1) with rfl | rfl
      · refine ⟨false, rfl, ?_⟩
        rintro rfl
        have := reach_leaf (by decide) key
        cases this
      · refine ⟨true, rfl, ?_⟩
        rintro rfl
        have := reach_leaf (by decide) key
        cases this

end

/-- C69: the style of a drawing: the one computed for the node or edge, else the default, else none -/
theorem C69_styles {ν τ : Type} (g : BGen ν τ) (i j : Nat) : g.nodeStyle i = (g.compNode.map (· i)).getD (g.defNode.getD g.noNode) ∧
    g.edgeStyle i j = (g.compEdge.map (· i j)).getD (g.defEdge.getD g.noEdge) ∧ g.negStyle i j = (g.compNeg.map (· i j)).getD (g.defNeg.getD g.noEdge) ∧
    ∀ d, g.labelOr i d = (g.compLabel.map (· i)).getD d := by
  refine ⟨?_, ?_, ?_, fun d => ?_⟩
  · unfold BGen.nodeStyle
    cases g.compNode <;> cases g.defNode <;> rfl
  · unfold BGen.edgeStyle
    cases g.compEdge <;> cases g.defEdge <;> rfl
  · unfold BGen.negStyle
    cases g.compNeg <;> cases g.defNeg <;> rfl
  · unfold BGen.labelOr
    cases g.compLabel <;> rfl

end Verif.Bdd
