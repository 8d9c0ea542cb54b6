import Verif.Parser.Model
import Verif.Factory.FuncProps
import Mathlib.Data.List.Forall2
/-!
# Graphical representations of formulas (C67)

Model of /repo/formula/graphical.go, /repo/graphical/generator.go and /repo/graphical/representation.go on formulas as trees. A pointer to a node is the number in the id of
the node. Writing a representation as text is not modelled.
-/
namespace Verif.Graphical
open Verif Verif.Func Verif.Parser

/-! ## model -/

/-- graphical/generator.go:5-13 `Generator`; `noNode`, `noEdge` are the styles of `NoNodeStyle`, `NoEdgeStyle` -/
structure Gen (σ τ : Type) where
  noNode : σ
  noEdge : τ
  defNode : Option σ
  defEdge : Option τ
  compNode : Option (Fm String → σ)
  compLabel : Option (Fm String → String)
  compEdge : Option (Fm String → Fm String → τ)

/-- graphical/representation.go:4-9 -/
structure Node (σ : Type) where
  id : Nat
  label : String
  style : σ
  terminal : Bool
deriving DecidableEq

/-- graphical/representation.go:24-29 -/
structure Edge (τ : Type) where
  src : Nat
  dst : Nat
  style : τ
  label : String
deriving DecidableEq

/-- graphical/representation.go:44-50 -/
structure Rep (σ τ : Type) where
  nodes : List (Node σ)
  edges : List (Edge τ)
deriving DecidableEq

variable {σ τ : Type}

/-- graphical/generator.go:16-23 -/
def Gen.nodeStyle (g : Gen σ τ) (f : Fm String) : σ := match g.compNode with
  | none => match g.defNode with
    | none => g.noNode
    | some s => s
  | some k => k f

/-- graphical/generator.go:27-32 -/
def Gen.labelOr (g : Gen σ τ) (f : Fm String) (d : String) : String := match g.compLabel with
  | none => d
  | some k => k f

/-- graphical/generator.go:36-43 -/
def Gen.edgeStyle (g : Gen σ τ) (f h : Fm String) : τ := match g.compEdge with
  | none => match g.defEdge with
    | none => g.noEdge
    | some s => s
  | some k => k f h

/-- formula/graphical.go:143-149 `litString` -/
def litString (l : Lit String) : String := if l.pos then l.var else "¬" ++ l.var

/-- the text of `Sprint` -/
def text (f : Fm String) : String := String.ofList (sprint f)

/-- graphical/representation.go:72-74 with `NewEdge` -/
def addEdge (n m : Nat) (s : τ) (l : String) (r : Rep σ τ) : Rep σ τ := ⟨r.nodes, r.edges ++ [⟨n, m, s, l⟩]⟩

/-- formula/graphical.go:136-141 `astGenerator.addNode` (the pointer returned is the number of nodes before) -/
def addNode (g : Gen σ τ) (f : Fm String) (d : String) (t : Bool) (r : Rep σ τ) : Rep σ τ :=
  ⟨r.nodes ++ [⟨r.nodes.length, g.labelOr f d, g.nodeStyle f, t⟩], r.edges⟩

/-- formula/graphical.go:75-79: loop of `walkPBConstraint` -/
def walkLits (g : Gen σ τ) (p : Fm String) (n : Nat) : List (Lit String) → Rep σ τ → Rep σ τ
  | [], r => r
  | l :: ls, r =>
    let r1 := addNode g (.lit l) (litString l) true r
    walkLits g p n ls (addEdge n r.nodes.length (g.edgeStyle p (.lit l)) "" r1)

mutual
/-- formula/graphical.go:45-134 `astGenerator.walkFormula`; the node returned and the representation -/
def walk (g : Gen σ τ) : Fm String → Rep σ τ → Nat × Rep σ τ
  | .fls, r => (r.nodes.length, addNode g .fls (text .fls) true r)
  | .tru, r => (r.nodes.length, addNode g .tru (text .tru) true r)
  | .lit l, r => (r.nodes.length, addNode g (.lit l) (litString l) true r)
  | .cc c k xs, r => (r.nodes.length, walkLits g (.cc c k xs) r.nodes.length (xs.map fun x => ⟨x, true⟩) (addNode g (.cc c k xs) (text (.cc c k xs)) false r))
  | .pbc c k ts, r => (r.nodes.length, walkLits g (.pbc c k ts) r.nodes.length (ts.map (·.2)) (addNode g (.pbc c k ts) (text (.pbc c k ts)) false r))
  | .not f, r =>
    let a := walk g f (addNode g (.not f) "¬" false r)
    (r.nodes.length, addEdge r.nodes.length a.1 (g.edgeStyle (.not f) f) "" a.2)
  | .impl f h, r =>
    let a := walk g f (addNode g (.impl f h) "⇒" false r)
    let b := walk g h a.2
    (r.nodes.length, addEdge r.nodes.length b.1 (g.edgeStyle (.impl f h) h) "r" (addEdge r.nodes.length a.1 (g.edgeStyle (.impl f h) f) "l" b.2))
  | .equiv f h, r =>
    let a := walk g f (addNode g (.equiv f h) "⇔" false r)
    let b := walk g h a.2
    (r.nodes.length, addEdge r.nodes.length b.1 (g.edgeStyle (.equiv f h) h) "" (addEdge r.nodes.length a.1 (g.edgeStyle (.equiv f h) f) "" b.2))
  | .and fs, r => (r.nodes.length, walkOps g (.and fs) r.nodes.length fs (addNode g (.and fs) "∧" false r))
  | .or fs, r => (r.nodes.length, walkOps g (.or fs) r.nodes.length fs (addNode g (.or fs) "∨" false r))
/-- formula/graphical.go:128-132: loop of `walkNaryFormula` -/
def walkOps (g : Gen σ τ) (p : Fm String) (n : Nat) : List (Fm String) → Rep σ τ → Rep σ τ
  | [], r => r
  | f :: fs, r =>
    let a := walk g f r
    walkOps g p n fs (addEdge n a.1 (g.edgeStyle p f) "" a.2)
end

/-- formula/graphical.go:25-37 `GenerateGraphicalFormulaAST` -/
def ast (g : Gen σ τ) (f : Fm String) : Rep σ τ := (walk g f ⟨[], []⟩).2

/-- formula/graphical.go:170-175 `dagGenerator`; `keys`: the keys of the map `nodes` in the order of their insertion. The node of a key was created with the number of keys at that
moment as id, so its pointer is the position of the key. -/
structure Dag (σ τ : Type) where
  keys : List (Fm String)
  rep : Rep σ τ

/-- `g.nodes[formula]`; for a key that is missing a number that is no pointer -/
def Dag.ptr (d : Dag σ τ) (f : Fm String) : Nat := d.keys.idxOf f

/-- a new node in `initNodes` and `addNode`: formula/graphical.go:180-183, 277-280 -/
def Dag.push (g : Gen σ τ) (f : Fm String) (label : String) (t : Bool) (d : Dag σ τ) : Dag σ τ :=
  ⟨d.keys ++ [f], ⟨d.rep.nodes ++ [⟨d.keys.length, label, g.nodeStyle f, t⟩], d.rep.edges⟩⟩

/-- formula/graphical.go:274-284 `dagGenerator.addNode` -/
def Dag.addNode (g : Gen σ τ) (f : Fm String) (label : String) (t : Bool) (d : Dag σ τ) : Dag σ τ :=
  if f ∈ d.keys then d else d.push g f (g.labelOr f label) t

/-- formula/graphical.go:177-185 `initNodes`, over the literals in the order of `Literals(…).Content()` -/
def initNodes (g : Gen σ τ) (ls : List (Lit String)) (d : Dag σ τ) : Dag σ τ := ls.foldl (fun d l => d.push g (.lit l) (litString l) true) d

def Dag.addEdge (n m : Nat) (s : τ) (l : String) (d : Dag σ τ) : Dag σ τ := ⟨d.keys, Graphical.addEdge n m s l d.rep⟩

/-- formula/graphical.go:212-215 -/
def dWalkLits (g : Gen σ τ) (p : Fm String) (n : Nat) : List (Lit String) → Dag σ τ → Dag σ τ
  | [], d => d
  | l :: ls, d => dWalkLits g p n ls (d.addEdge n (d.ptr (.lit l)) (g.edgeStyle p (.lit l)) "")

mutual
/-- formula/graphical.go:187-272 `dagGenerator.walkFormula`; the node returned and the state -/
def dWalk (g : Gen σ τ) : Fm String → Dag σ τ → Nat × Dag σ τ
  | .fls, d => ((d.addNode g .fls (text .fls) true).ptr .fls, d.addNode g .fls (text .fls) true)
  | .tru, d => ((d.addNode g .tru (text .tru) true).ptr .tru, d.addNode g .tru (text .tru) true)
  | .lit l, d => (d.ptr (.lit l), d)
  | .cc c k xs, d =>
    let d1 := d.addNode g (.cc c k xs) (text (.cc c k xs)) false
    (d1.ptr (.cc c k xs), if .cc c k xs ∈ d.keys then d1 else dWalkLits g (.cc c k xs) (d1.ptr (.cc c k xs)) (xs.map fun x => ⟨x, true⟩) d1)
  | .pbc c k ts, d =>
    let d1 := d.addNode g (.pbc c k ts) (text (.pbc c k ts)) false
    (d1.ptr (.pbc c k ts), if .pbc c k ts ∈ d.keys then d1 else dWalkLits g (.pbc c k ts) (d1.ptr (.pbc c k ts)) (ts.map (·.2)) d1)
  | .not f, d =>
    let d1 := d.addNode g (.not f) "¬" false
    let n := d1.ptr (.not f)
    (n, if .not f ∈ d.keys then d1 else
      let a := dWalk g f d1
      a.2.addEdge n a.1 (g.edgeStyle (.not f) f) "")
  | .impl f h, d =>
    let d1 := d.addNode g (.impl f h) "⇒" false
    let n := d1.ptr (.impl f h)
    (n, if .impl f h ∈ d.keys then d1 else
      let a := dWalk g f d1
      let b := dWalk g h a.2
      (b.2.addEdge n a.1 (g.edgeStyle (.impl f h) f) "l").addEdge n b.1 (g.edgeStyle (.impl f h) h) "r")
  | .equiv f h, d =>
    let d1 := d.addNode g (.equiv f h) "⇔" false
    let n := d1.ptr (.equiv f h)
    (n, if .equiv f h ∈ d.keys then d1 else
      let a := dWalk g f d1
      let b := dWalk g h a.2
      (b.2.addEdge n a.1 (g.edgeStyle (.equiv f h) f) "").addEdge n b.1 (g.edgeStyle (.equiv f h) h) "")
  | .and fs, d =>
    let d1 := d.addNode g (.and fs) "∧" false
    let n := d1.ptr (.and fs)
    (n, if .and fs ∈ d.keys then d1 else dWalkOps g (.and fs) n fs d1)
  | .or fs, d =>
    let d1 := d.addNode g (.or fs) "∨" false
    let n := d1.ptr (.or fs)
    (n, if .or fs ∈ d.keys then d1 else dWalkOps g (.or fs) n fs d1)
/-- formula/graphical.go:266-269 -/
def dWalkOps (g : Gen σ τ) (p : Fm String) (n : Nat) : List (Fm String) → Dag σ τ → Dag σ τ
  | [], d => d
  | f :: fs, d =>
    let a := dWalk g f d
    dWalkOps g p n fs (a.2.addEdge n a.1 (g.edgeStyle p f) "")
end

/-- formula/graphical.go:154-168 `GenerateGraphicalFormulaDAG` with the literals `ls` of the formula; the node of the formula and the representation -/
def dag (g : Gen σ τ) (ls : List (Lit String)) (f : Fm String) : Nat × Dag σ τ := dWalk g f (initNodes g ls ⟨[], ⟨[], []⟩⟩)

/-! ## specification -/

/-- the edges a node of a formula should have: label and operand -/
def operands : Fm String → List (String × Fm String)
  | .fls | .tru | .lit _ => []
  | .not f => [("", f)]
  | .impl f h => [("l", f), ("r", h)]
  | .equiv f h => [("", f), ("", h)]
  | .and fs | .or fs => fs.map fun f => ("", f)
  | .cc _ _ xs => xs.map fun x => ("", .lit ⟨x, true⟩)
  | .pbc _ _ ts => ts.map fun t => ("", .lit t.2)

/-- the label a node of a formula has without a function for labels -/
def symbol : Fm String → String
  | .lit ⟨x, true⟩ => x
  | .lit ⟨x, false⟩ => "¬" ++ x
  | .not _ => "¬"
  | .impl _ _ => "⇒"
  | .equiv _ _ => "⇔"
  | .and _ => "∧"
  | .or _ => "∨"
  | f => text f

/-- constants and literals -/
def atomic : Fm String → Bool
  | .fls | .tru | .lit _ => true
  | _ => false

/-- the node of a formula -/
def nodeOf (g : Gen σ τ) (n : Nat) (f : Fm String) : Node σ := ⟨n, (g.compLabel.map (· f)).getD (symbol f), g.nodeStyle f, atomic f⟩

def out (r : Rep σ τ) (n : Nat) : List (Edge τ) := r.edges.filter fun e => decide (e.src = n)

/-- the graph below node `n` is the formula `f`: label, style and kind of the node, and exactly one edge per operand, in the order of the operands -/
inductive Shows (g : Gen σ τ) (r : Rep σ τ) : Nat → Fm String → Prop
  | mk (n : Nat) (f : Fm String) (hn : r.nodes[n]? = some (nodeOf g n f)) (hl : (out r n).length = (operands f).length)
      (he : ∀ (i : Nat) e o, (out r n)[i]? = some e → (operands f)[i]? = some o → e.label = o.1 ∧ e.style = g.edgeStyle f o.2)
      (hs : ∀ (i : Nat) e o, (out r n)[i]? = some e → (operands f)[i]? = some o → Shows g r e.dst o.2) : Shows g r n f

/-! ## lemmas -/

/-- an edge for an operand; `hs`: the formulas of the nodes -/
def M (g : Gen σ τ) (hs : List (Fm String)) (p : Fm String) (e : Edge τ) (o : String × Fm String) : Prop :=
  hs[e.dst]? = some o.2 ∧ e.label = o.1 ∧ e.style = g.edgeStyle p o.2

/-- the nodes are those of `hs`, and all but those of `O` have their edges -/
structure Inv (g : Gen σ τ) (r : Rep σ τ) (hs : List (Fm String)) (O : Nat → Prop) : Prop where
  nodes : r.nodes = hs.mapIdx (nodeOf g)
  src : ∀ e ∈ r.edges, e.src < hs.length
  good : ∀ (j : Nat) h, hs[j]? = some h → ¬O j → List.Forall₂ (M g hs h) (out r j) (operands h)

theorem prefix_get {hs hs' : List (Fm String)} (h : hs <+: hs') {j : Nat} {f : Fm String} (e : hs[j]? = some f) : hs'[j]? = some f := by
  obtain ⟨t, rfl⟩ := h
  have : j < hs.length := (List.getElem?_eq_some_iff.1 e).1
  rw [List.getElem?_append_left this, e]

theorem M_mono {g : Gen σ τ} {hs hs' : List (Fm String)} (h : hs <+: hs') {p : Fm String} {e : Edge τ} {o : String × Fm String} (m : M g hs p e o) : M g hs' p e o :=
  ⟨prefix_get h m.1, m.2⟩

theorem labelOr_eq (g : Gen σ τ) (f : Fm String) (d : String) : g.labelOr f d = (g.compLabel.map (· f)).getD d := by
  unfold Gen.labelOr
  cases g.compLabel <;> rfl

theorem litString_eq (l : Lit String) : litString l = symbol (.lit l) := by
  obtain ⟨x, b⟩ := l
  cases b <;> rfl

theorem out_addEdge (r : Rep σ τ) (n m : Nat) (s : τ) (l : String) (j : Nat) :
    out (addEdge n m s l r) j = if j = n then out r j ++ [⟨n, m, s, l⟩] else out r j := by
  unfold out addEdge
  rw [List.filter_append]
  by_cases h : j = n
  · simp [h]
  · rw [if_neg h]
    simp [Ne.symm h]

theorem Inv.length {g : Gen σ τ} {r : Rep σ τ} {hs : List (Fm String)} {O : Nat → Prop} (i : Inv g r hs O) : r.nodes.length = hs.length := by
  rw [i.nodes, List.length_mapIdx]

theorem out_nil {r : Rep σ τ} {n : Nat} (h : ∀ e ∈ r.edges, e.src < n) : out r n = [] := by
  unfold out
  rw [List.filter_eq_nil_iff]
  intro e he
  have := h e he
  simp only [decide_eq_true_eq]
  omega

/-- a new node has no edges yet -/
theorem Inv.push {g : Gen σ τ} {r : Rep σ τ} {hs : List (Fm String)} {O : Nat → Prop} (i : Inv g r hs O) {f : Fm String} :
    Inv g ⟨r.nodes ++ [nodeOf g hs.length f], r.edges⟩ (hs ++ [f]) (fun j => O j ∨ j = hs.length) where
  nodes := by simp [i.nodes, List.mapIdx_append]
  src := fun e he => by
    have := i.src e he
    simp only [List.length_append, List.length_singleton]
    omega
  good := fun j h hj hO => by
    simp only [not_or] at hO
    have hlt : j < hs.length := by
      have := (List.getElem?_eq_some_iff.1 hj).1
      simp only [List.length_append, List.length_singleton] at this
      omega
    rw [List.getElem?_append_left hlt] at hj
    exact (i.good j h hj hO.1).imp fun _ _ m => M_mono (List.prefix_append _ _) m

theorem addNode_eq {g : Gen σ τ} {r : Rep σ τ} {hs : List (Fm String)} {O : Nat → Prop} (i : Inv g r hs O) (f : Fm String) :
    addNode g f (symbol f) (atomic f) r = ⟨r.nodes ++ [nodeOf g hs.length f], r.edges⟩ := by
  unfold addNode nodeOf
  rw [labelOr_eq, i.length]

theorem Inv.addEdge {g : Gen σ τ} {r : Rep σ τ} {hs : List (Fm String)} {O : Nat → Prop} (i : Inv g r hs O) {n : Nat} (hn : n < hs.length) (ho : O n) (m : Nat) (s : τ) (l : String) :
    Inv g (addEdge n m s l r) hs O where
  nodes := i.nodes
  src := fun e he => by
    rcases List.mem_append.1 he with he | he
    · exact i.src e he
    · simp only [List.mem_singleton] at he
      subst he
      exact hn
  good := fun j h hj hO => by
    rw [out_addEdge, if_neg (by rintro rfl; exact hO ho)]
    exact i.good j h hj hO

theorem Inv.close {g : Gen σ τ} {r : Rep σ τ} {hs : List (Fm String)} {O : Nat → Prop} {n : Nat} (i : Inv g r hs fun j => O j ∨ j = n) {f : Fm String} (hn : hs[n]? = some f)
    (h : List.Forall₂ (M g hs f) (out r n) (operands f)) : Inv g r hs O where
  nodes := i.nodes
  src := i.src
  good := fun j h' hj hO => by
    by_cases e : j = n
    · subst e
      rw [hn] at hj
      cases hj
      exact h
    · exact i.good j h' hj (by simp [hO, e])

theorem allNodes_head (f : Fm String) : ∃ t, allNodes f = f :: t := by
  cases f <;> simp [allNodes]

theorem allNodes_at (hs : List (Fm String)) (f : Fm String) (t : List (Fm String)) : (hs ++ allNodes f ++ t)[hs.length]? = some f := by
  obtain ⟨u, hu⟩ := allNodes_head f
  simp [hu]

/-! ### the tree -/

theorem walkLits_inv {g : Gen σ τ} (p : Fm String) (n : Nat) : ∀ (ls : List (Lit String)) {r : Rep σ τ} {hs : List (Fm String)} {O : Nat → Prop}, Inv g r hs O → n < hs.length → O n →
    Inv g (walkLits g p n ls r) (hs ++ ls.map .lit) O ∧ (∀ j, j < hs.length → j ≠ n → out (walkLits g p n ls r) j = out r j) ∧
      ∃ es, out (walkLits g p n ls r) n = out r n ++ es ∧ List.Forall₂ (M g (hs ++ ls.map .lit) p) es (ls.map fun l => ("", .lit l))
  | [], r, hs, O, i, hn, ho => by simpa [walkLits] using i
  | l :: ls, r, hs, O, i, hn, ho => by
    have e1 : addNode g (.lit l) (litString l) true r = ⟨r.nodes ++ [nodeOf g hs.length (.lit l)], r.edges⟩ := by
      rw [litString_eq]
      exact addNode_eq i (.lit l)
    rw [walkLits]
    simp only [e1]
    have hne : n ≠ hs.length := by omega
    have i1 : Inv g ⟨r.nodes ++ [nodeOf g hs.length (.lit l)], r.edges⟩ (hs ++ [.lit l]) O :=
      i.push.close (f := .lit l) (by simp) (by
        have : out (⟨r.nodes ++ [nodeOf g hs.length (.lit l)], r.edges⟩ : Rep σ τ) hs.length = [] := out_nil i.src
        rw [this]
        exact .nil)
    have i2 := i1.addEdge (n := n) (by simp; omega) ho r.nodes.length (g.edgeStyle p (.lit l)) ""
    obtain ⟨a, b, es, c, d⟩ := walkLits_inv p n ls i2 (by simp; omega) ho
    rw [List.append_assoc] at a d
    refine ⟨by simpa using a, fun j hj hjn => ?_, _ :: es, ?_, .cons (a := ⟨n, r.nodes.length, g.edgeStyle p (.lit l), ""⟩) ⟨?_, rfl, rfl⟩ (by simpa using d)⟩
    · rw [b j (by simp; omega) hjn, out_addEdge, if_neg hjn]
      rfl
    · rw [c, out_addEdge, if_pos rfl, List.append_assoc]
      rfl
    · simp [i.length]

theorem walkOps_inv {g : Gen σ τ} (p : Fm String) (n : Nat) : ∀ (fs : List (Fm String)),
    (∀ f ∈ fs, ∀ {r : Rep σ τ} {hs : List (Fm String)} {O : Nat → Prop}, Inv g r hs O →
      (walk g f r).1 = hs.length ∧ Inv g (walk g f r).2 (hs ++ allNodes f) O ∧ ∀ j, j < hs.length → out (walk g f r).2 j = out r j) →
    ∀ {r : Rep σ τ} {hs : List (Fm String)} {O : Nat → Prop}, Inv g r hs O → n < hs.length → O n →
    Inv g (walkOps g p n fs r) (hs ++ allNodesL fs) O ∧ (∀ j, j < hs.length → j ≠ n → out (walkOps g p n fs r) j = out r j) ∧
      ∃ es, out (walkOps g p n fs r) n = out r n ++ es ∧ List.Forall₂ (M g (hs ++ allNodesL fs) p) es (fs.map fun f => ("", f))
  | [], _, r, hs, O, i, hn, ho => by simpa [walkOps, allNodesL] using i
  | f :: fs, ih, r, hs, O, i, hn, ho => by
    rw [walkOps, allNodesL]
    obtain ⟨w1, w2, w3⟩ := ih f (by simp) i
    have i2 := w2.addEdge (n := n) (by simp; omega) ho (walk g f r).1 (g.edgeStyle p f) ""
    obtain ⟨a, b, es, c, d⟩ := walkOps_inv p n fs (fun f hf => ih f (by simp [hf])) i2 (by simp; omega) ho
    rw [List.append_assoc] at a d
    refine ⟨a, fun j hj hjn => ?_, _ :: es, ?_, .cons (a := ⟨n, (walk g f r).1, g.edgeStyle p f, ""⟩) ⟨?_, rfl, rfl⟩ d⟩
    · rw [b j (by simp; omega) hjn, out_addEdge, if_neg hjn, w3 j hj]
    · rw [c, out_addEdge, if_pos rfl, List.append_assoc, w3 n hn]
      rfl
    · rw [w1, ← List.append_assoc]
      exact allNodes_at hs f _

theorem walk_inv {g : Gen σ τ} (f : Fm String) : ∀ {r : Rep σ τ} {hs : List (Fm String)} {O : Nat → Prop}, Inv g r hs O →
    (walk g f r).1 = hs.length ∧ Inv g (walk g f r).2 (hs ++ allNodes f) O ∧ ∀ j, j < hs.length → out (walk g f r).2 j = out r j := by
  have atom : ∀ f : Fm String, operands f = [] → allNodes f = [f] → (∀ r : Rep σ τ, walk g f r = (r.nodes.length, addNode g f (symbol f) (atomic f) r)) →
      ∀ {r : Rep σ τ} {hs : List (Fm String)} {O : Nat → Prop}, Inv g r hs O →
      (walk g f r).1 = hs.length ∧ Inv g (walk g f r).2 (hs ++ allNodes f) O ∧ ∀ j, j < hs.length → out (walk g f r).2 j = out r j := by
    intro f h1 h2 h3 r hs O i
    rw [h3, h2, addNode_eq i]
    refine ⟨i.length, i.push.close (f := f) (by simp) ?_, fun j hj => rfl⟩
    have : out (⟨r.nodes ++ [nodeOf g hs.length f], r.edges⟩ : Rep σ τ) hs.length = [] := out_nil i.src
    rw [this, h1]
    exact .nil
  have lits : ∀ (f : Fm String) (ls : List (Lit String)), operands f = ls.map (fun l => ("", .lit l)) → allNodes f = f :: ls.map .lit →
      (∀ r : Rep σ τ, walk g f r = (r.nodes.length, walkLits g f r.nodes.length ls (addNode g f (symbol f) (atomic f) r))) →
      ∀ {r : Rep σ τ} {hs : List (Fm String)} {O : Nat → Prop}, Inv g r hs O →
      (walk g f r).1 = hs.length ∧ Inv g (walk g f r).2 (hs ++ allNodes f) O ∧ ∀ j, j < hs.length → out (walk g f r).2 j = out r j := by
    intro f ls h1 h2 h3 r hs O i
    rw [h3, h2, addNode_eq i, i.length]
    obtain ⟨a, b, es, c, d⟩ := walkLits_inv f hs.length ls (i.push (f := f)) (by simp) (.inr rfl)
    rw [List.append_assoc] at a d
    have h0 : out (⟨r.nodes ++ [nodeOf g hs.length f], r.edges⟩ : Rep σ τ) hs.length = [] := out_nil i.src
    refine ⟨rfl, Inv.close a (f := f) (by simp) ?_, fun j hj => ?_⟩
    · rw [c, h0, h1]
      exact d
    · exact b j (by simp; omega) (by omega)
  have ops : ∀ (f : Fm String) (fs : List (Fm String)), operands f = fs.map (fun l => ("", l)) → allNodes f = f :: allNodesL fs →
      (∀ r : Rep σ τ, walk g f r = (r.nodes.length, walkOps g f r.nodes.length fs (addNode g f (symbol f) (atomic f) r))) →
      (∀ f ∈ fs, ∀ {r : Rep σ τ} {hs : List (Fm String)} {O : Nat → Prop}, Inv g r hs O →
      (walk g f r).1 = hs.length ∧ Inv g (walk g f r).2 (hs ++ allNodes f) O ∧ ∀ j, j < hs.length → out (walk g f r).2 j = out r j) →
      ∀ {r : Rep σ τ} {hs : List (Fm String)} {O : Nat → Prop}, Inv g r hs O →
      (walk g f r).1 = hs.length ∧ Inv g (walk g f r).2 (hs ++ allNodes f) O ∧ ∀ j, j < hs.length → out (walk g f r).2 j = out r j := by
    intro f fs h1 h2 h3 ih r hs O i
    rw [h3, h2, addNode_eq i, i.length]
    obtain ⟨a, b, es, c, d⟩ := walkOps_inv f hs.length fs ih (i.push (f := f)) (by simp) (.inr rfl)
    rw [List.append_assoc] at a d
    have h0 : out (⟨r.nodes ++ [nodeOf g hs.length f], r.edges⟩ : Rep σ τ) hs.length = [] := out_nil i.src
    refine ⟨rfl, Inv.close a (f := f) (by simp) ?_, fun j hj => ?_⟩
    · rw [c, h0, h1]
      exact d
    · exact b j (by simp; omega) (by omega)
  have bin : ∀ (f a b : Fm String) (x y : String), operands f = [(x, a), (y, b)] → allNodes f = f :: (allNodes a ++ allNodes b) →
      (∀ r : Rep σ τ, walk g f r = (r.nodes.length, addEdge r.nodes.length (walk g b (walk g a (addNode g f (symbol f) (atomic f) r)).2).1 (g.edgeStyle f b) y
        (addEdge r.nodes.length (walk g a (addNode g f (symbol f) (atomic f) r)).1 (g.edgeStyle f a) x (walk g b (walk g a (addNode g f (symbol f) (atomic f) r)).2).2))) →
      (∀ k, k = a ∨ k = b → ∀ {r : Rep σ τ} {hs : List (Fm String)} {O : Nat → Prop}, Inv g r hs O →
      (walk g k r).1 = hs.length ∧ Inv g (walk g k r).2 (hs ++ allNodes k) O ∧ ∀ j, j < hs.length → out (walk g k r).2 j = out r j) →
      ∀ {r : Rep σ τ} {hs : List (Fm String)} {O : Nat → Prop}, Inv g r hs O →
      (walk g f r).1 = hs.length ∧ Inv g (walk g f r).2 (hs ++ allNodes f) O ∧ ∀ j, j < hs.length → out (walk g f r).2 j = out r j := by
    intro f a b x y h1 h2 h3 ih r hs O i
    rw [h3, h2, addNode_eq i, i.length]
    have h0 : out (⟨r.nodes ++ [nodeOf g hs.length f], r.edges⟩ : Rep σ τ) hs.length = [] := out_nil i.src
    obtain ⟨a1, a2, a3⟩ := ih a (.inl rfl) (i.push (f := f))
    obtain ⟨b1, b2, b3⟩ := ih b (.inr rfl) a2
    have c2 := (b2.addEdge (n := hs.length) (by simp) (.inr rfl) (walk g a ⟨r.nodes ++ [nodeOf g hs.length f], r.edges⟩).1 (g.edgeStyle f a) x).addEdge (n := hs.length) (by simp) (.inr rfl)
      (walk g b (walk g a ⟨r.nodes ++ [nodeOf g hs.length f], r.edges⟩).2).1 (g.edgeStyle f b) y
    have hh : hs ++ f :: (allNodes a ++ allNodes b) = hs ++ [f] ++ allNodes a ++ allNodes b := by simp
    rw [hh]
    refine ⟨rfl, Inv.close c2 (f := f) (by simp) ?_, fun j hj => ?_⟩
    · rw [out_addEdge, if_pos rfl, out_addEdge, if_pos rfl, b3 _ (by simp), a3 _ (by simp), h0, h1]
      refine .cons ⟨?_, rfl, rfl⟩ (.cons ⟨?_, rfl, rfl⟩ .nil)
      · simp only
        rw [a1]
        exact allNodes_at (hs ++ [f]) a _
      · simp only
        rw [b1]
        have := allNodes_at (hs ++ [f] ++ allNodes a) b []
        rwa [List.append_nil] at this
    · rw [out_addEdge, if_neg (by omega), out_addEdge, if_neg (by omega), b3 _ (by simp; omega), a3 _ (by simp; omega)]
      rfl
  induction f using Fm.ind with
  | hf => exact atom _ rfl (by simp [allNodes]) fun r => by rw [walk]; rfl
  | ht => exact atom _ rfl (by simp [allNodes]) fun r => by rw [walk]; rfl
  | hl l => exact atom _ rfl (by simp [allNodes]) fun r => by rw [walk, litString_eq]; rfl
  | hn f ih =>
    intro r hs O i
    have h3 : walk g (.not f) r = (r.nodes.length, addEdge r.nodes.length (walk g f (addNode g (.not f) (symbol (.not f)) (atomic (.not f)) r)).1 (g.edgeStyle (.not f) f) ""
        (walk g f (addNode g (.not f) (symbol (.not f)) (atomic (.not f)) r)).2) := by rw [walk]; rfl
    have h2 : allNodes (.not f) = .not f :: allNodes f := by rw [allNodes]
    rw [h3, h2, addNode_eq i, i.length]
    have h0 : out (⟨r.nodes ++ [nodeOf g hs.length (.not f)], r.edges⟩ : Rep σ τ) hs.length = [] := out_nil i.src
    obtain ⟨a1, a2, a3⟩ := ih (i.push (f := .not f))
    have c2 := a2.addEdge (n := hs.length) (by simp) (.inr rfl) (walk g f ⟨r.nodes ++ [nodeOf g hs.length (.not f)], r.edges⟩).1 (g.edgeStyle (.not f) f) ""
    have hh : hs ++ (.not f) :: allNodes f = hs ++ [.not f] ++ allNodes f := by simp
    rw [hh]
    refine ⟨rfl, Inv.close c2 (f := .not f) (by simp) ?_, fun j hj => ?_⟩
    · rw [out_addEdge, if_pos rfl, a3 _ (by simp), h0]
      refine .cons ⟨?_, rfl, rfl⟩ .nil
      simp only
      rw [a1]
      have := allNodes_at (hs ++ [.not f]) f []
      rwa [List.append_nil] at this
    · rw [out_addEdge, if_neg (by omega), a3 _ (by simp; omega)]
      rfl
  | ha fs ih => exact ops _ fs rfl (by rw [allNodes]) (fun r => by rw [walk]; rfl) ih
  | ho fs ih => exact ops _ fs rfl (by rw [allNodes]) (fun r => by rw [walk]; rfl) ih
  | hi l r ihl ihr => exact bin _ l r "l" "r" rfl (by rw [allNodes]) (fun r => by rw [walk]; rfl) (by rintro k (rfl | rfl); exacts [ihl, ihr])
  | he l r ihl ihr => exact bin _ l r "" "" rfl (by rw [allNodes]) (fun r => by rw [walk]; rfl) (by rintro k (rfl | rfl); exacts [ihl, ihr])
  | hc c k xs => exact lits _ (xs.map fun x => ⟨x, true⟩) (by simp [operands]) (by simp [allNodes]) (fun r => by rw [walk]; rfl)
  | hp c k ts => exact lits _ (ts.map (·.2)) (by simp [operands]) (by simp [allNodes]) (fun r => by rw [walk]; rfl)

/-- with all edges there the graph shows the formulas of its nodes -/
theorem Inv.shows {g : Gen σ τ} {r : Rep σ τ} {hs : List (Fm String)} (i : Inv g r hs fun _ => False) (f : Fm String) : ∀ n : Nat, hs[n]? = some f → Shows g r n f := by
  have mk : ∀ f : Fm String, (∀ o ∈ operands f, ∀ n : Nat, hs[n]? = some o.2 → Shows g r n o.2) → ∀ n : Nat, hs[n]? = some f → Shows g r n f := by
    intro f ih n hn
    have h := i.good n f hn (fun h => h)
    have key : ∀ (k : Nat) e o, (out r n)[k]? = some e → (operands f)[k]? = some o → M g hs f e o := by
      intro k e o he ho
      obtain ⟨h1, h2⟩ := List.forall₂_iff_get.1 h
      obtain ⟨hk, rfl⟩ := List.getElem?_eq_some_iff.1 he
      obtain ⟨hk', rfl⟩ := List.getElem?_eq_some_iff.1 ho
      exact h2 k hk hk'
    refine .mk n f ?_ h.length_eq (fun k e o he ho => (key k e o he ho).2) fun k e o he ho => ih o (List.mem_of_getElem? ho) _ (key k e o he ho).1
    rw [i.nodes, List.getElem?_mapIdx, hn]
    rfl
  have lit : ∀ l (n : Nat), hs[n]? = some (.lit l) → Shows g r n (.lit l) := fun l => mk _ (by simp [operands])
  induction f using Fm.ind with
  | hf => exact mk _ (by simp [operands])
  | ht => exact mk _ (by simp [operands])
  | hl l => exact lit l
  | hn f ih => exact mk _ (by simpa [operands] using ih)
  | ha fs ih => exact mk _ (by simpa [operands] using ih)
  | ho fs ih => exact mk _ (by simpa [operands] using ih)
  | hi l r ihl ihr => exact mk _ (by simpa [operands] using ⟨ihl, ihr⟩)
  | he l r ihl ihr => exact mk _ (by simpa [operands] using ⟨ihl, ihr⟩)
  | hc c k xs => exact mk _ (by simpa [operands] using fun x _ => lit ⟨x, true⟩)
  | hp c k ts => exact mk _ (by
      simp only [operands, List.mem_map]
      rintro o ⟨t, _, rfl⟩
      exact lit t.2)

theorem inv_start (g : Gen σ τ) : Inv g ⟨[], []⟩ [] fun _ => False := ⟨rfl, by simp, by simp⟩

/-- **C67**: the tree of a formula shows the formula at its first node, and its nodes are the occurrences of subformulas in the order of the formula -/
theorem C67_ast (g : Gen σ τ) (f : Fm String) : Shows g (ast g f) 0 f ∧ (ast g f).nodes = (allNodes f).mapIdx (nodeOf g) := by
  obtain ⟨_, h, _⟩ := walk_inv f (inv_start g)
  rw [List.nil_append] at h
  refine ⟨h.shows f 0 ?_, h.nodes⟩
  obtain ⟨t, ht⟩ := allNodes_head f
  simp [ht]

theorem walkLits_dst {g : Gen σ τ} (p : Fm String) (n : Nat) : ∀ (ls : List (Lit String)) (r : Rep σ τ),
    (walkLits g p n ls r).edges.map Edge.dst = r.edges.map Edge.dst ++ List.range' r.nodes.length ls.length
  | [], r => by simp [walkLits]
  | l :: ls, r => by
    rw [walkLits]
    rw [walkLits_dst p n ls]
    simp [addEdge, addNode, List.range'_succ]

theorem walkOps_dst {g : Gen σ τ} (p : Fm String) (n : Nat) : ∀ (fs : List (Fm String)),
    (∀ f ∈ fs, ∀ {r : Rep σ τ} {hs : List (Fm String)} {O : Nat → Prop}, Inv g r hs O →
      ∃ es, (walk g f r).2.edges.map Edge.dst = r.edges.map Edge.dst ++ es ∧ (hs.length :: es).Perm (List.range' hs.length (allNodes f).length)) →
    ∀ {r : Rep σ τ} {hs : List (Fm String)} {O : Nat → Prop}, Inv g r hs O → n < hs.length → O n →
    ∃ es, (walkOps g p n fs r).edges.map Edge.dst = r.edges.map Edge.dst ++ es ∧ es.Perm (List.range' hs.length (allNodesL fs).length)
  | [], _, r, hs, O, i, hn, ho => ⟨[], by simp [walkOps], by simp [allNodesL]⟩
  | f :: fs, ih, r, hs, O, i, hn, ho => by
    rw [walkOps, allNodesL]
    obtain ⟨w1, w2, w3⟩ := walk_inv f i
    obtain ⟨es, h1, h2⟩ := ih f (by simp) i
    obtain ⟨es', h3, h4⟩ := walkOps_dst p n fs (fun f hf => ih f (by simp [hf])) (w2.addEdge (n := n) (by simp; omega) ho (walk g f r).1 (g.edgeStyle p f) "") (by simp; omega) ho
    refine ⟨es ++ hs.length :: es', ?_, ?_⟩
    · rw [h3]
      simp only [addEdge, List.map_append, h1, List.map_cons, List.map_nil, w1]
      simp
    · rw [List.length_append] at h4 ⊢
      rw [← List.range'_append_1]
      refine List.perm_middle.trans ?_
      rw [← List.cons_append]
      exact h2.append h4

theorem binPerm {es es' : List Nat} {hs : List (Fm String)} {f : Fm String} {A B : List (Fm String)} (h2 : ((hs ++ [f]).length :: es).Perm (List.range' (hs ++ [f]).length A.length))
    (h4 : ((hs ++ [f] ++ A).length :: es').Perm (List.range' (hs ++ [f] ++ A).length B.length)) :
    (hs.length :: (es ++ es' ++ [hs.length + 1, hs.length + 1 + A.length])).Perm (List.range' hs.length (f :: (A ++ B)).length) := by
  rw [List.length_cons, List.range'_succ, List.length_append, ← List.range'_append_1]
  simp only [List.length_append, List.length_singleton] at h2 h4
  refine List.Perm.cons _ ?_
  refine List.Perm.trans ?_ (h2.append h4)
  rw [List.perm_iff_count]
  intro a
  simp only [List.count_append, List.count_cons, List.count_nil]
  omega

theorem walk_dst {g : Gen σ τ} (f : Fm String) : ∀ {r : Rep σ τ} {hs : List (Fm String)} {O : Nat → Prop}, Inv g r hs O →
    ∃ es, (walk g f r).2.edges.map Edge.dst = r.edges.map Edge.dst ++ es ∧ (hs.length :: es).Perm (List.range' hs.length (allNodes f).length) := by
  induction f using Fm.ind with
  | hf => intro r hs O i; exact ⟨[], by simp [walk, addNode], by simp [allNodes]⟩
  | ht => intro r hs O i; exact ⟨[], by simp [walk, addNode], by simp [allNodes]⟩
  | hl l => intro r hs O i; exact ⟨[], by simp [walk, addNode], by simp [allNodes]⟩
  | hn f ih =>
    intro r hs O i
    have e0 := addNode_eq i (.not f)
    simp only [symbol, atomic] at e0
    rw [walk, allNodes]
    simp only [e0]
    obtain ⟨w1, w2, w3⟩ := walk_inv f (i.push (f := .not f))
    obtain ⟨es, h1, h2⟩ := ih (i.push (f := .not f))
    refine ⟨es ++ [hs.length + 1], ?_, ?_⟩
    · simp only [addEdge, List.map_append, h1, List.map_cons, List.map_nil, w1, List.length_append, List.length_singleton, List.append_assoc]
    · rw [List.length_cons, List.range'_succ]
      simp only [List.length_append, List.length_singleton] at h2
      exact ((List.perm_append_singleton _ _).trans h2).cons _
  | ha fs ih =>
    intro r hs O i
    have e0 := addNode_eq i (.and fs)
    simp only [symbol, atomic] at e0
    rw [walk, allNodes, e0, i.length]
    obtain ⟨es, h1, h2⟩ := walkOps_dst (.and fs) hs.length fs ih (i.push (f := .and fs)) (by simp) (.inr rfl)
    refine ⟨es, h1, ?_⟩
    rw [List.length_cons, List.range'_succ]
    simp only [List.length_append, List.length_singleton] at h2
    exact h2.cons _
  | ho fs ih =>
    intro r hs O i
    have e0 := addNode_eq i (.or fs)
    simp only [symbol, atomic] at e0
    rw [walk, allNodes, e0, i.length]
    obtain ⟨es, h1, h2⟩ := walkOps_dst (.or fs) hs.length fs ih (i.push (f := .or fs)) (by simp) (.inr rfl)
    refine ⟨es, h1, ?_⟩
    rw [List.length_cons, List.range'_succ]
    simp only [List.length_append, List.length_singleton] at h2
    exact h2.cons _
  | hi a b iha ihb =>
    intro r hs O i
    have e0 := addNode_eq i (.impl a b)
    simp only [symbol, atomic] at e0
    rw [walk, allNodes]
    simp only [e0]
    obtain ⟨w1, w2, _⟩ := walk_inv a (i.push (f := .impl a b))
    obtain ⟨v1, _, _⟩ := walk_inv b w2
    obtain ⟨es, h1, h2⟩ := iha (i.push (f := .impl a b))
    obtain ⟨es', h3, h4⟩ := ihb w2
    refine ⟨es ++ es' ++ [hs.length + 1, hs.length + 1 + (allNodes a).length], ?_, ?_⟩
    · simp only [addEdge, List.map_append, h1, h3, List.map_cons, List.map_nil, w1, v1, List.length_append, List.length_singleton, List.append_assoc, List.cons_append, List.nil_append]
      rw [show hs.length + ((Fm.impl a b) :: allNodes a).length = hs.length + 1 + (allNodes a).length by simp only [List.length_cons]; omega]
    · exact binPerm h2 h4
  | he a b iha ihb =>
    intro r hs O i
    have e0 := addNode_eq i (.equiv a b)
    simp only [symbol, atomic] at e0
    rw [walk, allNodes]
    simp only [e0]
    obtain ⟨w1, w2, _⟩ := walk_inv a (i.push (f := .equiv a b))
    obtain ⟨v1, _, _⟩ := walk_inv b w2
    obtain ⟨es, h1, h2⟩ := iha (i.push (f := .equiv a b))
    obtain ⟨es', h3, h4⟩ := ihb w2
    refine ⟨es ++ es' ++ [hs.length + 1, hs.length + 1 + (allNodes a).length], ?_, ?_⟩
    · simp only [addEdge, List.map_append, h1, h3, List.map_cons, List.map_nil, w1, v1, List.length_append, List.length_singleton, List.append_assoc, List.cons_append, List.nil_append]
      rw [show hs.length + ((Fm.equiv a b) :: allNodes a).length = hs.length + 1 + (allNodes a).length by simp only [List.length_cons]; omega]
    · exact binPerm h2 h4
  | hc c k xs =>
    intro r hs O i
    rw [walk, allNodes, walkLits_dst]
    refine ⟨_, rfl, ?_⟩
    simp [addNode, i.length, List.range'_succ]
  | hp c k ts =>
    intro r hs O i
    rw [walk, allNodes, walkLits_dst]
    refine ⟨_, rfl, ?_⟩
    simp [addNode, i.length, List.range'_succ]

/-- **C67**: it is a tree: every node but the first is the target of exactly one edge, and there are no other targets -/
theorem C67_tree (g : Gen σ τ) (f : Fm String) (n : Nat) :
    ((ast g f).edges.map Edge.dst).count n = if 0 < n ∧ n < (ast g f).nodes.length then 1 else 0 := by
  obtain ⟨es, h1, h2⟩ := walk_dst f (inv_start g)
  have hn : (ast g f).nodes.length = (allNodes f).length := by rw [(C67_ast g f).2, List.length_mapIdx]
  unfold ast at hn ⊢
  rw [hn, h1, List.map_nil, List.nil_append]
  obtain ⟨t, ht⟩ := allNodes_head f
  rw [ht, List.length_cons, List.length_nil, List.range'_succ] at h2
  have h3 : es.Perm (List.range' 1 t.length) := List.Perm.cons_inv h2
  rw [h3.count_eq, ht, List.length_cons, List.Nodup.count List.nodup_range']
  refine if_congr ?_ rfl rfl
  rw [List.mem_range'_1]
  omega

/-! ### the graph -/

/-- what a walk over a formula does -/
structure DOk (g : Gen σ τ) (d : Dag σ τ) (O : Nat → Prop) (f : Fm String) (a : Nat × Dag σ τ) : Prop where
  ptr : a.2.keys[a.1]? = some f
  inv : Inv g a.2.rep a.2.keys O
  nodup : a.2.keys.Nodup
  pre : d.keys <+: a.2.keys
  sub : ∀ h ∈ a.2.keys, h ∈ d.keys ∨ h ∈ allNodes f
  out : ∀ j, j < d.keys.length → out a.2.rep j = Graphical.out d.rep j

theorem ptr_get {d : Dag σ τ} {f : Fm String} (h : f ∈ d.keys) : d.keys[d.ptr f]? = some f := by
  unfold Dag.ptr
  rw [List.getElem?_idxOf h]

theorem DOk.present {g : Gen σ τ} {d : Dag σ τ} {O : Nat → Prop} (i : Inv g d.rep d.keys O) (nd : d.keys.Nodup) {f : Fm String} (h : f ∈ d.keys) : DOk g d O f (d.ptr f, d) :=
  ⟨ptr_get h, i, nd, List.prefix_refl _, fun _ hh => .inl hh, fun _ _ => rfl⟩

theorem dWalkLits_inv {g : Gen σ τ} (p : Fm String) (n : Nat) : ∀ (ls : List (Lit String)) {d : Dag σ τ} {O : Nat → Prop}, Inv g d.rep d.keys O → n < d.keys.length → O n →
    (∀ l ∈ ls, .lit l ∈ d.keys) →
    (dWalkLits g p n ls d).keys = d.keys ∧ Inv g (dWalkLits g p n ls d).rep d.keys O ∧ (∀ j, j ≠ n → out (dWalkLits g p n ls d).rep j = out d.rep j) ∧
      ∃ es, out (dWalkLits g p n ls d).rep n = out d.rep n ++ es ∧ List.Forall₂ (M g d.keys p) es (ls.map fun l => ("", .lit l))
  | [], d, O, i, hn, ho, hl => ⟨rfl, i, fun _ _ => rfl, [], by simp [dWalkLits], .nil⟩
  | l :: ls, d, O, i, hn, ho, hl => by
    rw [dWalkLits]
    have i2 := i.addEdge hn ho (d.ptr (.lit l)) (g.edgeStyle p (.lit l)) ""
    obtain ⟨k, a, b, es, c, e⟩ := dWalkLits_inv p n ls (d := d.addEdge n (d.ptr (.lit l)) (g.edgeStyle p (.lit l)) "") i2 hn ho fun l h => hl l (by simp [h])
    refine ⟨k, a, fun j hj => ?_, _ :: es, ?_, .cons (a := ⟨n, d.ptr (.lit l), g.edgeStyle p (.lit l), ""⟩) ⟨ptr_get (hl l (by simp)), rfl, rfl⟩ e⟩
    · rw [b j hj]
      simp only [Dag.addEdge]
      rw [out_addEdge, if_neg hj]
    · rw [c]
      simp only [Dag.addEdge]
      rw [out_addEdge, if_pos rfl, List.append_assoc]
      rfl

theorem dWalkOps_inv {g : Gen σ τ} (p : Fm String) (n : Nat) : ∀ (fs : List (Fm String)),
    (∀ f ∈ fs, ∀ {d : Dag σ τ} {O : Nat → Prop}, Inv g d.rep d.keys O → d.keys.Nodup → (∀ l ∈ occLits f, .lit l ∈ d.keys) → DOk g d O f (dWalk g f d)) →
    ∀ {d : Dag σ τ} {O : Nat → Prop}, Inv g d.rep d.keys O → d.keys.Nodup → (∀ l ∈ occLitsL fs, .lit l ∈ d.keys) → n < d.keys.length → O n →
    Inv g (dWalkOps g p n fs d).rep (dWalkOps g p n fs d).keys O ∧ (dWalkOps g p n fs d).keys.Nodup ∧ d.keys <+: (dWalkOps g p n fs d).keys ∧
      (∀ h ∈ (dWalkOps g p n fs d).keys, h ∈ d.keys ∨ h ∈ allNodesL fs) ∧ (∀ j, j < d.keys.length → j ≠ n → out (dWalkOps g p n fs d).rep j = out d.rep j) ∧
      ∃ es, out (dWalkOps g p n fs d).rep n = out d.rep n ++ es ∧ List.Forall₂ (M g (dWalkOps g p n fs d).keys p) es (fs.map fun f => ("", f))
  | [], _, d, O, i, nd, hl, hn, ho => ⟨i, nd, List.prefix_refl _, fun _ h => .inl h, fun _ _ _ => rfl, [], by simp [dWalkOps], .nil⟩
  | f :: fs, ih, d, O, i, nd, hl, hn, ho => by
    rw [dWalkOps]
    simp only [occLitsL, List.mem_append] at hl
    have w := ih f (by simp) i nd fun l h => hl l (.inl h)
    have hn' : n < (dWalk g f d).2.keys.length := Nat.lt_of_lt_of_le hn w.pre.length_le
    have i2 := w.inv.addEdge hn' ho (dWalk g f d).1 (g.edgeStyle p f) ""
    obtain ⟨a1, a2, a3, a4, a5, es, a6, a7⟩ := dWalkOps_inv p n fs (fun f hf => ih f (by simp [hf])) (d := (dWalk g f d).2.addEdge n (dWalk g f d).1 (g.edgeStyle p f) "") i2 w.nodup
      (fun l h => w.pre.subset (hl l (.inr h))) hn' ho
    refine ⟨a1, a2, w.pre.trans a3, fun h hh => ?_, fun j hj hjn => ?_, _ :: es, ?_,
      .cons (a := ⟨n, (dWalk g f d).1, g.edgeStyle p f, ""⟩) ⟨prefix_get (hs := (dWalk g f d).2.keys) a3 w.ptr, rfl, rfl⟩ a7⟩
    · rw [allNodesL, List.mem_append]
      rcases a4 h hh with h1 | h1
      · rcases w.sub h h1 with h2 | h2
        · exact .inl h2
        · exact .inr (.inl h2)
      · exact .inr (.inr h1)
    · rw [a5 j (Nat.lt_of_lt_of_le hj w.pre.length_le) hjn]
      simp only [Dag.addEdge]
      rw [out_addEdge, if_neg hjn, w.out j hj]
    · rw [a6]
      simp only [Dag.addEdge]
      rw [out_addEdge, if_pos rfl, List.append_assoc, w.out n hn]
      rfl

/-- the state after a new node -/
def Dag.opened (g : Gen σ τ) (f : Fm String) (d : Dag σ τ) : Dag σ τ := ⟨d.keys ++ [f], ⟨d.rep.nodes ++ [nodeOf g d.keys.length f], d.rep.edges⟩⟩

theorem dAddNode_eq {g : Gen σ τ} {d : Dag σ τ} {f : Fm String} (h : f ∉ d.keys) : d.addNode g f (symbol f) (atomic f) = d.opened g f := by
  unfold Dag.addNode Dag.push Dag.opened nodeOf
  rw [if_neg h, labelOr_eq]

theorem opened_ptr {g : Gen σ τ} {d : Dag σ τ} {f : Fm String} (h : f ∉ d.keys) : (d.opened g f).ptr f = d.keys.length := by
  unfold Dag.ptr Dag.opened
  rw [List.idxOf_append_of_notMem h]
  simp

theorem opened_nodup {g : Gen σ τ} {d : Dag σ τ} {f : Fm String} (nd : d.keys.Nodup) (h : f ∉ d.keys) : (d.opened g f).keys.Nodup := by
  unfold Dag.opened
  rw [List.nodup_append]
  refine ⟨nd, by simp, fun a ha b hb => ?_⟩
  simp only [List.mem_singleton] at hb
  subst hb
  rintro rfl
  exact h ha

/-- a new node whose edges have been added -/
theorem DOk.closed {g : Gen σ τ} {d d' : Dag σ τ} {O : Nat → Prop} {f : Fm String} (i : Inv g d'.rep d'.keys fun j => O j ∨ j = d.keys.length)
    (nd : d'.keys.Nodup) (pre : (d.opened g f).keys <+: d'.keys) (sub : ∀ h ∈ d'.keys, h ∈ (d.opened g f).keys ∨ h ∈ allNodes f)
    (ho : ∀ j, j < d.keys.length → Graphical.out d'.rep j = Graphical.out d.rep j) (hf : List.Forall₂ (M g d'.keys f) (Graphical.out d'.rep d.keys.length) (operands f)) :
    DOk g d O f (d.keys.length, d') := by
  have hp : d'.keys[d.keys.length]? = some f := prefix_get pre (by simp [Dag.opened])
  refine ⟨hp, i.close hp hf, nd, (List.prefix_append _ _).trans pre, fun h hh => ?_, ho⟩
  rcases sub h hh with h1 | h1
  · simp only [Dag.opened, List.mem_append, List.mem_singleton] at h1
    rcases h1 with h1 | rfl
    · exact .inl h1
    · obtain ⟨t, ht⟩ := allNodes_head h
      exact .inr (by simp [ht])
  · exact .inr h1

theorem dWalk_inv {g : Gen σ τ} (f : Fm String) : ∀ {d : Dag σ τ} {O : Nat → Prop}, Inv g d.rep d.keys O → d.keys.Nodup → (∀ l ∈ occLits f, .lit l ∈ d.keys) →
    DOk g d O f (dWalk g f d) := by
  have node : ∀ (f : Fm String) (W : Dag σ τ → Dag σ τ), (∀ d : Dag σ τ, dWalk g f d = ((d.addNode g f (symbol f) (atomic f)).ptr f,
      if f ∈ d.keys then d.addNode g f (symbol f) (atomic f) else W (d.addNode g f (symbol f) (atomic f)))) →
      (∀ {d : Dag σ τ} {O : Nat → Prop}, f ∉ d.keys → Inv g (d.opened g f).rep (d.opened g f).keys (fun j => O j ∨ j = d.keys.length) → (d.opened g f).keys.Nodup →
        (∀ l ∈ occLits f, .lit l ∈ (d.opened g f).keys) → Graphical.out (d.opened g f).rep d.keys.length = [] → DOk g d O f (d.keys.length, W (d.opened g f))) →
      ∀ {d : Dag σ τ} {O : Nat → Prop}, Inv g d.rep d.keys O → d.keys.Nodup → (∀ l ∈ occLits f, .lit l ∈ d.keys) → DOk g d O f (dWalk g f d) := by
    intro f W h1 h2 d O i nd hl
    rw [h1]
    by_cases h : f ∈ d.keys
    · have : d.addNode g f (symbol f) (atomic f) = d := by unfold Dag.addNode; rw [if_pos h]
      rw [this, if_pos h]
      exact .present i nd h
    · rw [if_neg h, dAddNode_eq h, opened_ptr h]
      exact h2 h i.push (opened_nodup nd h) (fun l hl' => by simp [Dag.opened, hl l hl']) (out_nil i.src)
  have atom : ∀ f : Fm String, operands f = [] → (∀ d : Dag σ τ, dWalk g f d = ((d.addNode g f (symbol f) (atomic f)).ptr f, d.addNode g f (symbol f) (atomic f))) →
      ∀ {d : Dag σ τ} {O : Nat → Prop}, Inv g d.rep d.keys O → d.keys.Nodup → (∀ l ∈ occLits f, .lit l ∈ d.keys) → DOk g d O f (dWalk g f d) := by
    intro f ho h1
    refine node f id (fun d => by rw [h1]; simp) ?_
    intro d O h i nd hl h0
    refine .closed i nd (List.prefix_refl _) (fun _ h => .inl h) (fun _ _ => rfl) ?_
    simp only [id]
    rw [h0, ho]
    exact .nil
  have lits : ∀ (f : Fm String) (ls : List (Lit String)), operands f = ls.map (fun l => ("", .lit l)) → occLits f = ls →
      (∀ d : Dag σ τ, dWalk g f d = ((d.addNode g f (symbol f) (atomic f)).ptr f, if f ∈ d.keys then d.addNode g f (symbol f) (atomic f) else
        dWalkLits g f ((d.addNode g f (symbol f) (atomic f)).ptr f) ls (d.addNode g f (symbol f) (atomic f)))) →
      ∀ {d : Dag σ τ} {O : Nat → Prop}, Inv g d.rep d.keys O → d.keys.Nodup → (∀ l ∈ occLits f, .lit l ∈ d.keys) → DOk g d O f (dWalk g f d) := by
    intro f ls ho hL h1
    refine node f (fun d => dWalkLits g f (d.ptr f) ls d) h1 ?_
    intro d O h i nd hl h0
    rw [hL] at hl
    simp only [opened_ptr h]
    obtain ⟨k, a, b, es, c, e⟩ := dWalkLits_inv f d.keys.length ls i (by simp [Dag.opened]) (.inr rfl) hl
    refine .closed (by rw [k]; exact a) (by rw [k]; exact nd) (by rw [k]; exact List.prefix_refl _) (fun h hh => .inl (by rwa [k] at hh)) (fun j hj => b j (by omega)) ?_
    rw [c, h0, ho, k]
    exact e
  have ops : ∀ (f : Fm String) (fs : List (Fm String)), operands f = fs.map (fun h => ("", h)) → occLits f = occLitsL fs → allNodes f = f :: allNodesL fs →
      (∀ d : Dag σ τ, dWalk g f d = ((d.addNode g f (symbol f) (atomic f)).ptr f, if f ∈ d.keys then d.addNode g f (symbol f) (atomic f) else
        dWalkOps g f ((d.addNode g f (symbol f) (atomic f)).ptr f) fs (d.addNode g f (symbol f) (atomic f)))) →
      (∀ f ∈ fs, ∀ {d : Dag σ τ} {O : Nat → Prop}, Inv g d.rep d.keys O → d.keys.Nodup → (∀ l ∈ occLits f, .lit l ∈ d.keys) → DOk g d O f (dWalk g f d)) →
      ∀ {d : Dag σ τ} {O : Nat → Prop}, Inv g d.rep d.keys O → d.keys.Nodup → (∀ l ∈ occLits f, .lit l ∈ d.keys) → DOk g d O f (dWalk g f d) := by
    intro f fs ho hL hA h1 ih
    refine node f (fun d => dWalkOps g f (d.ptr f) fs d) h1 ?_
    intro d O h i nd hl h0
    rw [hL] at hl
    simp only [opened_ptr h]
    obtain ⟨a1, a2, a3, a4, a5, es, a6, a7⟩ := dWalkOps_inv f d.keys.length fs ih i nd hl (by simp [Dag.opened]) (.inr rfl)
    refine .closed a1 a2 a3 (fun h hh => ?_) (fun j hj => a5 j (by simp [Dag.opened]; omega) (by omega)) ?_
    · rcases a4 h hh with h1 | h1
      · exact .inl h1
      · exact .inr (by simp [hA, h1])
    · rw [a6, h0, ho]
      exact a7
  have bin : ∀ (f a b : Fm String) (x y : String), operands f = [(x, a), (y, b)] → occLits f = occLits a ++ occLits b → allNodes f = f :: (allNodes a ++ allNodes b) →
      (∀ d : Dag σ τ, dWalk g f d = ((d.addNode g f (symbol f) (atomic f)).ptr f, if f ∈ d.keys then d.addNode g f (symbol f) (atomic f) else
        ((dWalk g b (dWalk g a (d.addNode g f (symbol f) (atomic f))).2).2.addEdge ((d.addNode g f (symbol f) (atomic f)).ptr f) (dWalk g a (d.addNode g f (symbol f) (atomic f))).1
          (g.edgeStyle f a) x).addEdge ((d.addNode g f (symbol f) (atomic f)).ptr f) (dWalk g b (dWalk g a (d.addNode g f (symbol f) (atomic f))).2).1 (g.edgeStyle f b) y)) →
      (∀ k, k = a ∨ k = b → ∀ {d : Dag σ τ} {O : Nat → Prop}, Inv g d.rep d.keys O → d.keys.Nodup → (∀ l ∈ occLits k, .lit l ∈ d.keys) → DOk g d O k (dWalk g k d)) →
      ∀ {d : Dag σ τ} {O : Nat → Prop}, Inv g d.rep d.keys O → d.keys.Nodup → (∀ l ∈ occLits f, .lit l ∈ d.keys) → DOk g d O f (dWalk g f d) := by
    intro f a b x y ho hL hA h1 ih
    refine node f (fun d => ((dWalk g b (dWalk g a d).2).2.addEdge (d.ptr f) (dWalk g a d).1 (g.edgeStyle f a) x).addEdge (d.ptr f) (dWalk g b (dWalk g a d).2).1 (g.edgeStyle f b) y) h1 ?_
    intro d O h i nd hl h0
    rw [hL] at hl
    simp only [opened_ptr h]
    have wa := ih a (.inl rfl) i nd fun l h => hl l (by simp [h])
    have wb := ih b (.inr rfl) wa.inv wa.nodup fun l h => wa.pre.subset (hl l (by simp [h]))
    have hn0 : d.keys.length < (d.opened g f).keys.length := by simp [Dag.opened]
    have hn1 : d.keys.length < (dWalk g a (d.opened g f)).2.keys.length := Nat.lt_of_lt_of_le hn0 wa.pre.length_le
    have hn2 := Nat.lt_of_lt_of_le hn1 wb.pre.length_le
    have hfin : ∀ j, j < (d.opened g f).keys.length → Graphical.out (dWalk g b (dWalk g a (d.opened g f)).2).2.rep j = Graphical.out (d.opened g f).rep j := fun j hj => by
      rw [wb.out j (Nat.lt_of_lt_of_le hj wa.pre.length_le), wa.out j hj]
    refine .closed ((wb.inv.addEdge hn2 (.inr rfl) _ _ _).addEdge hn2 (.inr rfl) _ _ _) wb.nodup (wa.pre.trans wb.pre) (fun h hh => ?_) (fun j hj => ?_) ?_
    · rcases wb.sub h hh with h1 | h1
      · rcases wa.sub h h1 with h1 | h1
        · exact .inl h1
        · exact .inr (by simp [hA, h1])
      · exact .inr (by simp [hA, h1])
    · simp only [Dag.addEdge]
      rw [out_addEdge, if_neg (by omega), out_addEdge, if_neg (by omega), hfin j (by omega)]
      rfl
    · simp only [Dag.addEdge]
      rw [out_addEdge, if_pos rfl, out_addEdge, if_pos rfl, hfin _ hn0, h0, ho]
      exact .cons ⟨prefix_get wb.pre wa.ptr, rfl, rfl⟩ (.cons ⟨wb.ptr, rfl, rfl⟩ .nil)
  induction f using Fm.ind with
  | hf => exact atom _ rfl fun d => by rw [dWalk]; rfl
  | ht => exact atom _ rfl fun d => by rw [dWalk]; rfl
  | hl l =>
    intro d O i nd hl
    rw [dWalk]
    exact .present i nd (hl l (by simp [occLits]))
  | hn f ih =>
    intro d O
    refine node (.not f) (fun d => (dWalk g f d).2.addEdge (d.ptr (.not f)) (dWalk g f d).1 (g.edgeStyle (.not f) f) "") (fun d => by rw [dWalk]; rfl) ?_
    intro d O h i nd hl h0
    simp only [occLits] at hl
    simp only [opened_ptr h]
    have w := ih i nd hl
    have hn0 : d.keys.length < (d.opened g (.not f)).keys.length := by simp [Dag.opened]
    have hn1 := Nat.lt_of_lt_of_le hn0 w.pre.length_le
    refine .closed (w.inv.addEdge hn1 (.inr rfl) _ _ _) w.nodup w.pre (fun h hh => ?_) (fun j hj => ?_) ?_
    · rcases w.sub h hh with h1 | h1
      · exact .inl h1
      · exact .inr (by simp [allNodes, h1])
    · simp only [Dag.addEdge]
      rw [out_addEdge, if_neg (by omega), w.out j (by omega)]
      rfl
    · simp only [Dag.addEdge]
      rw [out_addEdge, if_pos rfl, w.out _ hn0, h0]
      exact .cons ⟨w.ptr, rfl, rfl⟩ .nil
  | ha fs ih => exact ops _ fs rfl (by rw [occLits]) (by rw [allNodes]) (fun d => by rw [dWalk]; rfl) ih
  | ho fs ih => exact ops _ fs rfl (by rw [occLits]) (by rw [allNodes]) (fun d => by rw [dWalk]; rfl) ih
  | hi l r ihl ihr => exact bin _ l r "l" "r" rfl (by rw [occLits]) (by rw [allNodes]) (fun d => by rw [dWalk]; rfl) (by rintro k (rfl | rfl); exacts [ihl, ihr])
  | he l r ihl ihr => exact bin _ l r "" "" rfl (by rw [occLits]) (by rw [allNodes]) (fun d => by rw [dWalk]; rfl) (by rintro k (rfl | rfl); exacts [ihl, ihr])
  | hc c k xs => exact lits _ (xs.map fun x => ⟨x, true⟩) (by simp [operands]) (by simp [occLits]) (fun d => by rw [dWalk]; rfl)
  | hp c k ts => exact lits _ (ts.map (·.2)) (by simp [operands]) (by simp [occLits]) (fun d => by rw [dWalk]; rfl)

theorem initNodes_inv {g : Gen σ τ} (hg : ∀ l, g.labelOr (.lit l) (symbol (.lit l)) = symbol (.lit l)) : ∀ (ls : List (Lit String)) {d : Dag σ τ}, ls.Nodup → (∀ l ∈ ls, .lit l ∉ d.keys) →
    d.keys.Nodup → Inv g d.rep d.keys (fun _ => False) →
    (initNodes g ls d).keys = d.keys ++ ls.map .lit ∧ (initNodes g ls d).keys.Nodup ∧ Inv g (initNodes g ls d).rep (initNodes g ls d).keys fun _ => False
  | [], d, _, _, nd, i => by simpa [initNodes] using ⟨nd, i⟩
  | l :: ls, d, hn, hk, nd, i => by
    rw [List.nodup_cons] at hn
    have hl := hk l (by simp)
    have e : d.push g (.lit l) (litString l) true = d.opened g (.lit l) := by
      unfold Dag.push Dag.opened nodeOf
      rw [litString_eq, ← labelOr_eq, hg]
      rfl
    have i1 : Inv g (d.opened g (.lit l)).rep (d.opened g (.lit l)).keys fun _ => False := by
      refine i.push.close (f := .lit l) (by simp) ?_
      have : out (⟨d.rep.nodes ++ [nodeOf g d.keys.length (.lit l)], d.rep.edges⟩ : Rep σ τ) d.keys.length = [] := out_nil i.src
      rw [this]
      exact .nil
    have key := initNodes_inv hg ls (d := d.opened g (.lit l)) hn.2 (fun m hm => by
      simp only [Dag.opened, List.mem_append, List.mem_singleton, not_or, Fm.lit.injEq]
      exact ⟨hk m (by simp [hm]), by rintro rfl; exact hn.1 hm⟩) (opened_nodup nd hl) i1
    have e2 : initNodes g (l :: ls) d = initNodes g ls (d.opened g (.lit l)) := by
      unfold initNodes
      rw [List.foldl_cons, e]
    rw [e2]
    refine ⟨?_, key.2⟩
    rw [key.1]
    simp [Dag.opened]

theorem lit_mem_allNodes (f : Fm String) : ∀ l ∈ occLits f, (Fm.lit l) ∈ allNodes f := by
  induction f using Fm.ind with
  | hf => simp [occLits]
  | ht => simp [occLits]
  | hl l => simp [occLits, allNodes]
  | hn f ih => intro l hl; rw [occLits] at hl; simp [allNodes, ih l hl]
  | ha fs ih =>
    intro l hl
    rw [occLits, occLitsL_eq, List.mem_flatMap] at hl
    obtain ⟨f, hf, hl⟩ := hl
    rw [allNodes, allNodesL_eq, List.mem_cons, List.mem_flatMap]
    exact .inr ⟨f, hf, ih f hf l hl⟩
  | ho fs ih =>
    intro l hl
    rw [occLits, occLitsL_eq, List.mem_flatMap] at hl
    obtain ⟨f, hf, hl⟩ := hl
    rw [allNodes, allNodesL_eq, List.mem_cons, List.mem_flatMap]
    exact .inr ⟨f, hf, ih f hf l hl⟩
  | hi a b iha ihb =>
    intro l hl
    rw [occLits, List.mem_append] at hl
    rcases hl with hl | hl
    · simp [allNodes, iha l hl]
    · simp [allNodes, ihb l hl]
  | he a b iha ihb =>
    intro l hl
    rw [occLits, List.mem_append] at hl
    rcases hl with hl | hl
    · simp [allNodes, iha l hl]
    · simp [allNodes, ihb l hl]
  | hc c k xs => intro l hl; rw [occLits, List.mem_map] at hl; obtain ⟨x, hx, rfl⟩ := hl; simp [allNodes, hx]
  | hp c k ts => intro l hl; rw [occLits, List.mem_map] at hl; obtain ⟨t, ht, rfl⟩ := hl; simp only [allNodes, List.mem_cons, List.mem_map]; exact .inr ⟨t, ht, rfl⟩

/-- the formulas of a graph with all edges are closed under subformulas -/
theorem Inv.all {g : Gen σ τ} {r : Rep σ τ} {hs : List (Fm String)} (i : Inv g r hs fun _ => False) (f : Fm String) : f ∈ hs → ∀ h ∈ allNodes f, h ∈ hs := by
  have op : ∀ f ∈ hs, ∀ o ∈ operands f, o.2 ∈ hs := by
    intro f hf o ho
    obtain ⟨n, hn⟩ := List.getElem?_of_mem hf
    have h := i.good n f hn (fun h => h)
    obtain ⟨k, hk⟩ := List.getElem?_of_mem ho
    obtain ⟨h1, h2⟩ := List.forall₂_iff_get.1 h
    obtain ⟨hk', rfl⟩ := List.getElem?_eq_some_iff.1 hk
    exact List.mem_of_getElem? (h2 k (by omega) hk').1
  induction f using Fm.ind with
  | hf => intro hf; simpa [allNodes] using hf
  | ht => intro hf; simpa [allNodes] using hf
  | hl l => intro hf; simpa [allNodes] using hf
  | hn f ih =>
    intro hf h hh
    rw [allNodes, List.mem_cons] at hh
    rcases hh with rfl | hh
    · exact hf
    · exact ih (op _ hf ("", f) (by simp [operands])) h hh
  | ha fs ih =>
    intro hf h hh
    rw [allNodes, allNodesL_eq, List.mem_cons, List.mem_flatMap] at hh
    rcases hh with rfl | ⟨k, hk, hh⟩
    · exact hf
    · exact ih k hk (op _ hf ("", k) (by simp [operands, hk])) h hh
  | ho fs ih =>
    intro hf h hh
    rw [allNodes, allNodesL_eq, List.mem_cons, List.mem_flatMap] at hh
    rcases hh with rfl | ⟨k, hk, hh⟩
    · exact hf
    · exact ih k hk (op _ hf ("", k) (by simp [operands, hk])) h hh
  | hi a b iha ihb =>
    intro hf h hh
    rw [allNodes, List.mem_cons, List.mem_append] at hh
    rcases hh with rfl | hh | hh
    · exact hf
    · exact iha (op _ hf ("l", a) (by simp [operands])) h hh
    · exact ihb (op _ hf ("r", b) (by simp [operands])) h hh
  | he a b iha ihb =>
    intro hf h hh
    rw [allNodes, List.mem_cons, List.mem_append] at hh
    rcases hh with rfl | hh | hh
    · exact hf
    · exact iha (op _ hf ("", a) (by simp [operands])) h hh
    · exact ihb (op _ hf ("", b) (by simp [operands])) h hh
  | hc c k xs =>
    intro hf h hh
    rw [allNodes, List.mem_cons, List.mem_map] at hh
    rcases hh with rfl | ⟨x, hx, rfl⟩
    · exact hf
    · exact op _ hf ("", .lit ⟨x, true⟩) (by simp [operands, hx])
  | hp c k ts =>
    intro hf h hh
    rw [allNodes, List.mem_cons, List.mem_map] at hh
    rcases hh with rfl | ⟨t, ht, rfl⟩
    · exact hf
    · exact op _ hf ("", .lit t.2) (by simp only [operands, List.mem_map]; exact ⟨t, ht, rfl⟩)

/-- **C67**: the graph of a formula shows the formula at the node returned, and has exactly one node per different subformula. `ls`: the literals of the formula in any order
(`Literals`, C41). `_partial`: a function for labels must give the literals their default labels (`C67_label_false`). -/
theorem C67_dag_partial {g : Gen σ τ} (hg : ∀ l, g.labelOr (.lit l) (symbol (.lit l)) = symbol (.lit l)) {f : Fm String} {ls : List (Lit String)} (hn : ls.Nodup)
    (hl : ∀ l, l ∈ ls ↔ l ∈ occLits f) :
    Shows g (dag g ls f).2.rep (dag g ls f).1 f ∧ ∃ hs : List (Fm String), hs.Nodup ∧ (∀ h, h ∈ hs ↔ h ∈ allNodes f) ∧ (dag g ls f).2.rep.nodes = hs.mapIdx (nodeOf g) := by
  obtain ⟨h1, h2, h3⟩ := initNodes_inv hg ls (d := ⟨[], ⟨[], []⟩⟩) hn (by simp) (by simp) (inv_start g)
  have w := dWalk_inv f h3 h2 fun l h => by rw [h1]; simp [(hl l).2 h]
  refine ⟨w.inv.shows f _ w.ptr, _, w.nodup, fun h => ⟨fun hh => ?_, fun hh => w.inv.all f (List.mem_of_getElem? w.ptr) h hh⟩, w.inv.nodes⟩
  rcases w.sub h hh with hh | hh
  · rw [h1] at hh
    simp only [List.nil_append, List.mem_map] at hh
    obtain ⟨l, hl', rfl⟩ := hh
    exact lit_mem_allNodes f l ((hl l).1 hl')
  · exact hh

/-- the nodes marked as terminal are those without edges to others, as representation.go:76-98 says (a constraint without operands, which the factory does not create, is excluded) -/
theorem C67_terminal {g : Gen σ τ} {r : Rep σ τ} {n : Nat} {f : Fm String} (h : Shows g r n f) (hf : operands f ≠ [] ∨ atomic f = true) {k : Node σ} (hk : r.nodes[n]? = some k) :
    k.terminal = true ↔ ∀ e ∈ r.edges, e.src ≠ n := by
  have e1 : (∀ e ∈ r.edges, e.src ≠ n) ↔ out r n = [] := by simp [out, List.filter_eq_nil_iff]
  rw [e1]
  cases h with
  | mk _ _ hn hl he hs =>
    rw [hn] at hk
    cases hk
    rw [← List.length_eq_zero_iff, hl, List.length_eq_zero_iff]
    simp only [nodeOf]
    refine ⟨fun h => ?_, fun h => hf.resolve_left (fun hn => hn h)⟩
    cases f <;> first | rfl | simp [atomic] at h

/-! ## where the claim is false -/

def plainGen : Gen Unit Unit := ⟨(), (), none, none, none, none, none⟩

/-- a function for labels is not used for the literals of the graph, although it is for those of the tree and for all other nodes -/
theorem C67_label_false :
    let g : Gen Unit Unit := { plainGen with compLabel := some fun _ => "x" }
    let f : Fm String := .and [.lit ⟨"a", true⟩, .lit ⟨"b", false⟩]
    (dag g [⟨"a", true⟩, ⟨"b", false⟩] f).2.rep.nodes.map Node.label = ["a", "¬b", "x"] ∧ (ast g f).nodes.map Node.label = ["x", "x", "x"] := by decide +kernel

/-! ## examples -/

def exF : Fm String := .impl (.and [.lit ⟨"a", true⟩, .lit ⟨"b", false⟩]) (.or [.not (.and [.lit ⟨"a", true⟩, .lit ⟨"b", false⟩]), .cc .le 1 ["a", "c"]])

example : (ast plainGen exF).nodes.map Node.label = ["⇒", "∧", "a", "¬b", "∨", "¬", "∧", "a", "¬b", "a + c <= 1", "a", "c"] := by decide +kernel
example : (ast plainGen exF).edges.map (fun e => (e.src, e.dst)) = [(1, 2), (1, 3), (6, 7), (6, 8), (5, 6), (4, 5), (9, 10), (9, 11), (4, 9), (0, 1), (0, 4)] := by decide +kernel
example : (dag plainGen [⟨"a", true⟩, ⟨"b", false⟩, ⟨"c", true⟩] exF).2.rep.nodes.map Node.label = ["a", "¬b", "c", "⇒", "∧", "∨", "¬", "a + c <= 1"] := by decide +kernel
example : (dag plainGen [⟨"a", true⟩, ⟨"b", false⟩, ⟨"c", true⟩] exF).2.rep.edges.map (fun e => (e.src, e.dst)) = [(4, 0), (4, 1), (6, 4), (5, 6), (7, 0), (7, 2), (5, 7), (3, 4), (3, 5)] := by
  decide +kernel
/-- C67: the style of a drawing: the one computed for the node or edge, else the default, else none -/
theorem C67_styles (g : Gen σ τ) (f h : Fm String) : g.nodeStyle f = (g.compNode.map (· f)).getD (g.defNode.getD g.noNode) ∧
    g.edgeStyle f h = (g.compEdge.map (· f h)).getD (g.defEdge.getD g.noEdge) := by
  refine ⟨?_, ?_⟩
  · unfold Gen.nodeStyle
    cases g.compNode <;> cases g.defNode <;> rfl
  · unfold Gen.edgeStyle
    cases g.compEdge <;> cases g.defEdge <;> rfl

/-- the hypotheses of `C67_dag_partial` -/
example : (∀ l, plainGen.labelOr (.lit l) (symbol (.lit l)) = symbol (.lit l)) ∧ [⟨"a", true⟩, ⟨"b", false⟩, (⟨"c", true⟩ : Lit String)].Nodup ∧
    ∀ l, l ∈ [⟨"a", true⟩, ⟨"b", false⟩, (⟨"c", true⟩ : Lit String)] ↔ l ∈ occLits exF := by
  refine ⟨fun _ => rfl, by decide, fun l => ?_⟩
  simp [exF, occLits, occLitsL]
  tauto

end Verif.Graphical
