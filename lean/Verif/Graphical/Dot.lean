import Mathlib.Data.List.Basic
/-!
# Drawings as DOT text (C70)

Model of /repo/graphical/dot_writer.go with /repo/graphical/representation.go and styling.go. Texts are lists of characters. The writer is one that never fails (as the one of
`WriteDotToString`). A shape or type of an edge is one of the declared constants.
-/
namespace Verif.Dot

/-! ## model -/

/-- styling.go:49-54 -/
inductive Shape | default | rectangle | ellipse | circle
deriving DecidableEq

/-- styling.go:105-110 -/
inductive EType | default | solid | dotted | bold
deriving DecidableEq

abbrev Text := List Char

/-- styling.go:57-62 -/
structure NodeStyle where
  shape : Shape
  stroke : Text
  text : Text
  back : Text
deriving DecidableEq

/-- styling.go:113-116 -/
structure EdgeStyle where
  type : EType
  color : Text
deriving DecidableEq

/-- representation.go:4-9 -/
structure Node where
  id : Text
  label : Text
  style : NodeStyle
  terminal : Bool
deriving DecidableEq

/-- representation.go:24-29; the nodes by their ids -/
structure Edge where
  src : Text
  dst : Text
  style : EdgeStyle
  label : Text
deriving DecidableEq

/-- representation.go:44-50 -/
structure Rep where
  align : Bool
  directed : Bool
  background : Text
  nodes : List Node
  edges : List Edge
deriving DecidableEq

/-- representation.go:78-86 -/
def terminals (r : Rep) : List Node := r.nodes.filter fun n => n.terminal

/-- representation.go:90-98 -/
def nonTerminals (r : Rep) : List Node := r.nodes.filter fun n => !n.terminal

/-- `strings.Join` with a comma and a space -/
def join : List Text → Text
  | [] => []
  | [a] => a
  | a :: b :: l => a ++ ", ".toList ++ join (b :: l)

/-- dot_writer.go:151-160 -/
def shapeString : Shape → Text
  | .rectangle => "box".toList
  | .circle => "circle".toList
  | _ => "ellipse".toList

/-- dot_writer.go:162-171 -/
def typeString : EType → Text
  | .dotted => "dotted".toList
  | .bold => "bold".toList
  | _ => "solid".toList

/-- dot_writer.go:106-118: `attributes` of a node -/
def nodeAttrs (s : NodeStyle) : List Text :=
  (if s.shape ≠ .default then ["shape=".toList ++ shapeString s.shape] else []) ++
  (if s.stroke ≠ [] then ["color=\"".toList ++ s.stroke ++ "\"".toList] else []) ++
  (if s.text ≠ [] then ["fontcolor=\"".toList ++ s.text ++ "\"".toList] else []) ++
  (if s.back ≠ [] then ["style=filled, fillcolor=\"".toList ++ s.back ++ "\"".toList] else [])

/-- dot_writer.go:104-124 `dotNodeString` -/
def nodeString (n : Node) : Text :=
  let attrs := nodeAttrs n.style
  let a := if 0 < attrs.length then ", ".toList ++ join attrs else []
  "  ".toList ++ n.id ++ " [label=\"".toList ++ n.label ++ "\"".toList ++ a ++ "]".toList

/-- dot_writer.go:128-137: `attributes` of an edge -/
def edgeAttrs (e : Edge) : List Text :=
  (if e.style.color ≠ [] then ["color=\"".toList ++ e.style.color ++ "\", fontcolor=\"".toList ++ e.style.color ++ "\"".toList] else []) ++
  (if e.style.type ≠ .default then ["style=".toList ++ typeString e.style.type] else []) ++
  (if e.label ≠ [] then ["label=\"".toList ++ e.label ++ "\"".toList] else [])

/-- dot_writer.go:126-149 `dotEdgeString` -/
def edgeString (d : Bool) (e : Edge) : Text :=
  let attrs := edgeAttrs e
  let a := if 0 < attrs.length then " [".toList ++ join attrs ++ "]".toList else []
  "  ".toList ++ e.src ++ " ".toList ++ (if d then "->".toList else "--".toList) ++ " ".toList ++ e.dst ++ a

/-- dot_writer.go:57-70: the lines -/
def preamble (r : Rep) : List Text :=
  [(if r.directed then "digraph G".toList else "strict graph".toList) ++ " {".toList] ++
  (if r.background ≠ [] then ["  bgcolor=\"".toList ++ r.background ++ "\"".toList] else []) ++ [[]]

/-- dot_writer.go:72-89 -/
def nodeLines (r : Rep) : List Text :=
  (if r.align then ["{ rank = same;".toList] ++ (terminals r).map nodeString ++ ["}".toList] ++ (nonTerminals r).map nodeString
  else r.nodes.map nodeString) ++ [[]]

/-- dot_writer.go:91-97 -/
def edgeLines (r : Rep) : List Text := r.edges.map (edgeString r.directed)

/-- `Fprintln` of all lines -/
def unlines (ls : List Text) : Text := ls.flatMap fun l => l ++ ['\n']

/-- dot_writer.go:41-55 `WriteDotToWriter` -/
def write (r : Rep) : Text := unlines (preamble r ++ nodeLines r ++ edgeLines r ++ ["}".toList])

/-! ## specification -/

/-- what one sees of a node -/
def seen (n : Node) : Text × Text × NodeStyle := (n.id, n.label, n.style)

/-- the two drawings show the same: the same edges, and the same nodes in the same order, if terminal nodes are aligned with the same alignment -/
structure Same (r r' : Rep) : Prop where
  align : r.align = r'.align
  directed : r.directed = r'.directed
  background : r.background = r'.background
  edges : r.edges = r'.edges
  nodes : r.align = false → r.nodes.map seen = r'.nodes.map seen
  aligned : r.align = true → ∀ b, (r.nodes.filter fun n => n.terminal == b).map seen = (r'.nodes.filter fun n => n.terminal == b).map seen

/-- no quotes and ends of lines in the texts, ids also without spaces -/
structure Clean (r : Rep) : Prop where
  back : '"' ∉ r.background ∧ '\n' ∉ r.background
  id : ∀ n ∈ r.nodes, ' ' ∉ n.id ∧ '\n' ∉ n.id
  label : ∀ n ∈ r.nodes, '"' ∉ n.label ∧ '\n' ∉ n.label
  style : ∀ n ∈ r.nodes, ∀ t ∈ [n.style.stroke, n.style.text, n.style.back], '"' ∉ t ∧ '\n' ∉ t
  ends : ∀ e ∈ r.edges, ∀ t ∈ [e.src, e.dst], ' ' ∉ t ∧ '\n' ∉ t
  etext : ∀ e ∈ r.edges, ∀ t ∈ [e.label, e.style.color], '"' ∉ t ∧ '\n' ∉ t

/-! ## lemmas -/

theorem cut {c : Char} : ∀ {x y s t : Text}, c ∉ x → c ∉ y → x ++ c :: s = y ++ c :: t → x = y ∧ s = t
  | [], [], s, t, _, _, h => ⟨rfl, (List.cons.inj h).2⟩
  | [], b :: y, s, t, _, hy, h => absurd (List.cons.inj h).1 (by simp at hy; exact hy.1)
  | a :: x, [], s, t, hx, _, h => absurd (List.cons.inj h).1.symm (by simp at hx; exact hx.1)
  | a :: x, b :: y, s, t, hx, hy, h => by
    simp only [List.mem_cons, not_or] at hx hy
    obtain ⟨h1, h2⟩ := List.cons.inj h
    obtain ⟨h3, h4⟩ := cut hx.2 hy.2 h2
    exact ⟨by rw [h1, h3], h4⟩

/-- empty or beginning with `c` -/
def Hd (c : Char) (s : Text) : Prop := s = [] ∨ ∃ u, s = c :: u

theorem cutEnd {c : Char} : ∀ {x y s t : Text}, c ∉ x → c ∉ y → Hd c s → Hd c t → x ++ s = y ++ t → x = y ∧ s = t
  | [], [], s, t, _, _, _, _, h => ⟨rfl, h⟩
  | [], b :: y, s, t, _, hy, hs, _, h => by
    rcases hs with rfl | ⟨u, rfl⟩
    · cases h
    · exact absurd (List.cons.inj h).1 (by simp at hy; exact hy.1)
  | a :: x, [], s, t, hx, _, _, ht, h => by
    rcases ht with rfl | ⟨u, rfl⟩
    · cases h
    · exact absurd (List.cons.inj h).1.symm (by simp at hx; exact hx.1)
  | a :: x, b :: y, s, t, hx, hy, hs, ht, h => by
    simp only [List.mem_cons, not_or] at hx hy
    obtain ⟨h1, h2⟩ := List.cons.inj h
    obtain ⟨h3, h4⟩ := cutEnd hx.2 hy.2 hs ht h2
    exact ⟨by rw [h1, h3], h4⟩

/-- an optional attribute in quotes -/
def qA (k v : Text) : Text := if v = [] then [] else k ++ v ++ ['"']

theorem qA_inj {k v w s t : Text} (hv : '"' ∉ v) (hw : '"' ∉ w) (ns : ¬ k <+: s) (nt : ¬ k <+: t) (h : qA k v ++ s = qA k w ++ t) : v = w ∧ s = t := by
  unfold qA at h
  by_cases h1 : v = [] <;> by_cases h2 : w = []
  · simpa [h1, h2] using h
  · refine absurd ?_ ns
    rw [if_pos h1, if_neg h2] at h
    simp only [List.nil_append, List.append_assoc] at h
    rw [h]; exact List.prefix_append _ _
  · refine absurd ?_ nt
    rw [if_neg h1, if_pos h2] at h
    simp only [List.nil_append, List.append_assoc] at h
    rw [← h]; exact List.prefix_append _ _
  · rw [if_neg h1, if_neg h2] at h
    simp only [List.append_assoc] at h
    exact cut hv hw (List.append_cancel_left h)

theorem join_eq : ∀ {l : List Text}, l ≠ [] → ", ".toList ++ join l = l.flatMap fun a => ", ".toList ++ a
  | [a], _ => by simp [join]
  | a :: b :: l, _ => by
    rw [join, List.flatMap_cons, ← join_eq (l := b :: l) (by simp)]
    simp only [List.append_assoc]

theorem attrs_eq (l : List Text) : (if 0 < l.length then ", ".toList ++ join l else []) = l.flatMap fun a => ", ".toList ++ a := by
  cases l with
  | nil => rfl
  | cons a l => rw [if_pos (by simp), join_eq (by simp)]

def kShape : Text := [',', ' ', 's', 'h', 'a', 'p', 'e', '=']
def kColor : Text := [',', ' ', 'c', 'o', 'l', 'o', 'r', '=', '"']
def kFont : Text := [',', ' ', 'f', 'o', 'n', 't', 'c', 'o', 'l', 'o', 'r', '=', '"']
def kFill : Text := [',', ' ', 's', 't', 'y', 'l', 'e', '=', 'f', 'i', 'l', 'l', 'e', 'd', ',', ' ', 'f', 'i', 'l', 'l', 'c', 'o', 'l', 'o', 'r', '=', '"']
def kStyle : Text := [',', ' ', 's', 't', 'y', 'l', 'e', '=']
def kLabel : Text := [',', ' ', 'l', 'a', 'b', 'e', 'l', '=', '"']

def shA (s : Shape) : Text := if s = .default then [] else kShape ++ shapeString s
def tyA (s : EType) : Text := if s = .default then [] else kStyle ++ typeString s

theorem shA_inj {a b : Shape} {s t : Text} (ns : ¬ kShape <+: s) (nt : ¬ kShape <+: t) (h : shA a ++ s = shA b ++ t) : a = b ∧ s = t := by
  have e1 : shapeString .rectangle = ['b', 'o', 'x'] := rfl
  have e2 : shapeString .circle = ['c', 'i', 'r', 'c', 'l', 'e'] := rfl
  have e3 : shapeString .ellipse = ['e', 'l', 'l', 'i', 'p', 's', 'e'] := rfl
  unfold shA at h
  cases a <;> cases b <;> simp [e1, e2, e3] at h ⊢ <;> first | exact h | (subst h; simp at ns) | (subst h; simp at nt)

theorem tyA_inj {a b : EType} {s t : Text} (ns : ¬ kStyle <+: s) (nt : ¬ kStyle <+: t) (h : tyA a ++ s = tyA b ++ t) : a = b ∧ s = t := by
  have e1 : typeString .dotted = ['d', 'o', 't', 't', 'e', 'd'] := rfl
  have e2 : typeString .bold = ['b', 'o', 'l', 'd'] := rfl
  have e3 : typeString .solid = ['s', 'o', 'l', 'i', 'd'] := rfl
  unfold tyA at h
  cases a <;> cases b <;> simp [e1, e2, e3] at h ⊢ <;> first | exact h | (subst h; simp at ns) | (subst h; simp at nt)

/-- the attributes of a node up to the bracket -/
theorem nodeAttrs_eq (s : NodeStyle) : (nodeAttrs s).flatMap (fun a => ", ".toList ++ a) = shA s.shape ++ (qA kColor s.stroke ++ (qA kFont s.text ++ qA kFill s.back)) := by
  have c1 : kShape = ", ".toList ++ "shape=".toList := rfl
  have c2 : kColor = ", ".toList ++ "color=\"".toList := rfl
  have c3 : kFont = ", ".toList ++ "fontcolor=\"".toList := rfl
  have c4 : kFill = ", ".toList ++ "style=filled, fillcolor=\"".toList := rfl
  have c5 : "\"".toList = ['"'] := rfl
  unfold nodeAttrs shA qA
  rw [c1, c2, c3, c4, c5, List.flatMap_append, List.flatMap_append, List.flatMap_append]
  simp only [List.append_assoc]
  congr 1
  · by_cases h : s.shape = .default <;> simp [h]
  congr 1
  · by_cases h : s.stroke = [] <;> simp [h]
  congr 1
  · by_cases h : s.text = [] <;> simp [h]
  · by_cases h : s.back = [] <;> simp [h]

theorem nodeTail_inj {a b : NodeStyle} {s t : Text} (ha : ∀ t ∈ [a.stroke, a.text, a.back], '"' ∉ t) (hb : ∀ t ∈ [b.stroke, b.text, b.back], '"' ∉ t)
    (h : shA a.shape ++ (qA kColor a.stroke ++ (qA kFont a.text ++ (qA kFill a.back ++ ']' :: s))) =
      shA b.shape ++ (qA kColor b.stroke ++ (qA kFont b.text ++ (qA kFill b.back ++ ']' :: t)))) : a = b ∧ s = t := by
  have n4 : ∀ s : Text, ¬ kFill <+: ']' :: s := fun s => by simp [kFill]
  have n3 : ∀ (x s : Text), ¬ kFont <+: qA kFill x ++ ']' :: s := fun x s => by unfold qA; split <;> simp [kFont, kFill]
  have n2 : ∀ (y x s : Text), ¬ kColor <+: qA kFont y ++ (qA kFill x ++ ']' :: s) := fun y x s => by
    unfold qA; split <;> split <;> simp [kFont, kFill, kColor]
  have n1 : ∀ (z y x s : Text), ¬ kShape <+: qA kColor z ++ (qA kFont y ++ (qA kFill x ++ ']' :: s)) := fun z y x s => by
    unfold qA; split <;> split <;> split <;> simp [kFont, kFill, kColor, kShape]
  obtain ⟨h1, h⟩ := shA_inj (n1 _ _ _ _) (n1 _ _ _ _) h
  obtain ⟨h2, h⟩ := qA_inj (ha _ (by simp)) (hb _ (by simp)) (n2 _ _ _) (n2 _ _ _) h
  obtain ⟨h3, h⟩ := qA_inj (ha _ (by simp)) (hb _ (by simp)) (n3 _ _) (n3 _ _) h
  obtain ⟨h4, h⟩ := qA_inj (ha _ (by simp)) (hb _ (by simp)) (n4 _) (n4 _) h
  have hst : s = t := (List.cons.inj h).2
  obtain ⟨a1, a2, a3, a4⟩ := a
  obtain ⟨b1, b2, b3, b4⟩ := b
  simp only at h1 h2 h3 h4
  subst h1 h2 h3 h4
  exact ⟨rfl, hst⟩

theorem nodeString_eq (n : Node) : nodeString n = ' ' :: ' ' :: (n.id ++ ' ' :: (['[', 'l', 'a', 'b', 'e', 'l', '=', '"'] ++ (n.label ++ '"' ::
    (shA n.style.shape ++ (qA kColor n.style.stroke ++ (qA kFont n.style.text ++ (qA kFill n.style.back ++ [']']))))))) := by
  have c1 : "  ".toList = [' ', ' '] := rfl
  have c2 : " [label=\"".toList = [' ', '[', 'l', 'a', 'b', 'e', 'l', '=', '"'] := rfl
  have c3 : "\"".toList = ['"'] := rfl
  have c4 : "]".toList = [']'] := rfl
  unfold nodeString
  simp only [attrs_eq, nodeAttrs_eq, c1, c2, c3, c4]
  simp

theorem nodeString_inj {n m : Node} (h1 : ' ' ∉ n.id) (h2 : ' ' ∉ m.id) (h3 : '"' ∉ n.label) (h4 : '"' ∉ m.label)
    (h5 : ∀ t ∈ [n.style.stroke, n.style.text, n.style.back], '"' ∉ t) (h6 : ∀ t ∈ [m.style.stroke, m.style.text, m.style.back], '"' ∉ t)
    (h : nodeString n = nodeString m) : seen n = seen m := by
  rw [nodeString_eq, nodeString_eq] at h
  have h := (List.cons.inj (List.cons.inj h).2).2
  obtain ⟨e1, h⟩ := cut h1 h2 h
  obtain ⟨e2, h⟩ := cut h3 h4 (List.append_cancel_left h)
  obtain ⟨e3, -⟩ := nodeTail_inj h5 h6 h
  unfold seen
  rw [e1, e2, e3]

def coA (v : Text) : Text := if v = [] then [] else kColor ++ v ++ ('"' :: (kFont ++ v ++ ['"']))

theorem coA_inj {v w s t : Text} (hv : '"' ∉ v) (hw : '"' ∉ w) (ns : ¬ kColor <+: s) (nt : ¬ kColor <+: t) (h : coA v ++ s = coA w ++ t) : v = w ∧ s = t := by
  unfold coA at h
  by_cases h1 : v = [] <;> by_cases h2 : w = []
  · simpa [h1, h2] using h
  · refine absurd ?_ ns
    rw [if_pos h1, if_neg h2] at h
    simp only [List.nil_append, List.append_assoc] at h
    rw [h]; exact List.prefix_append _ _
  · refine absurd ?_ nt
    rw [if_neg h1, if_pos h2] at h
    simp only [List.nil_append, List.append_assoc] at h
    rw [← h]; exact List.prefix_append _ _
  · rw [if_neg h1, if_neg h2] at h
    simp only [List.append_assoc, List.cons_append] at h
    obtain ⟨e, h⟩ := cut hv hw (List.append_cancel_left h)
    subst e
    exact ⟨rfl, by simpa using h⟩

theorem edgeAttrs_eq (e : Edge) : (edgeAttrs e).flatMap (fun a => ", ".toList ++ a) = coA e.style.color ++ (tyA e.style.type ++ qA kLabel e.label) := by
  have c1 : kStyle = ", ".toList ++ "style=".toList := rfl
  have c2 : kColor = ", ".toList ++ "color=\"".toList := rfl
  have c3 : '"' :: kFont = "\", fontcolor=\"".toList := rfl
  have c4 : kLabel = ", ".toList ++ "label=\"".toList := rfl
  have c5 : "\"".toList = ['"'] := rfl
  unfold edgeAttrs coA tyA qA
  rw [← List.cons_append, ← List.cons_append, c1, c2, c3, c4, c5, List.flatMap_append, List.flatMap_append]
  simp only [List.append_assoc]
  congr 1
  · by_cases h : e.style.color = [] <;> simp [h]
  congr 1
  · by_cases h : e.style.type = .default <;> simp [h]
  · by_cases h : e.label = [] <;> simp [h]

theorem edgeTail_inj {a b : Edge} (ha : ∀ t ∈ [a.label, a.style.color], '"' ∉ t) (hb : ∀ t ∈ [b.label, b.style.color], '"' ∉ t)
    (h : coA a.style.color ++ (tyA a.style.type ++ (qA kLabel a.label ++ [']'])) = coA b.style.color ++ (tyA b.style.type ++ (qA kLabel b.label ++ [']']))) :
    a.style = b.style ∧ a.label = b.label := by
  have n3 : ¬ kLabel <+: [']'] := by simp [kLabel]
  have n2 : ∀ x : Text, ¬ kStyle <+: qA kLabel x ++ [']'] := fun x => by unfold qA; split <;> simp [kLabel, kStyle]
  have n1 : ∀ (y : EType) (x : Text), ¬ kColor <+: tyA y ++ (qA kLabel x ++ [']']) := fun y x => by
    unfold qA tyA; split <;> split <;> simp [kColor, kLabel, kStyle]
  obtain ⟨h1, h⟩ := coA_inj (ha _ (by simp)) (hb _ (by simp)) (n1 _ _) (n1 _ _) h
  obtain ⟨h2, h⟩ := tyA_inj (n2 _) (n2 _) h
  obtain ⟨h3, h⟩ := qA_inj (ha _ (by simp)) (hb _ (by simp)) n3 n3 h
  obtain ⟨s, d, ⟨y, c⟩, l⟩ := a
  obtain ⟨s', d', ⟨y', c'⟩, l'⟩ := b
  simp only at h1 h2 h3
  subst h1 h2 h3
  exact ⟨rfl, rfl⟩

/-- the attributes of an edge in brackets -/
def edgeA (e : Edge) : Text := if 0 < (edgeAttrs e).length then " [".toList ++ join (edgeAttrs e) ++ "]".toList else []

theorem edgeA_hd (e : Edge) : Hd ' ' (edgeA e) := by
  unfold edgeA
  split
  · exact .inr ⟨_, rfl⟩
  · exact .inl rfl

theorem edgeA_norm (e : Edge) : ", ".toList ++ join (edgeAttrs e) ++ [']'] = coA e.style.color ++ (tyA e.style.type ++ (qA kLabel e.label ++ [']'])) ∨
    (edgeAttrs e = [] ∧ [']'] = coA e.style.color ++ (tyA e.style.type ++ (qA kLabel e.label ++ [']']))) := by
  have h := edgeAttrs_eq e
  by_cases he : edgeAttrs e = []
  · right
    rw [he] at h
    refine ⟨he, ?_⟩
    have := congrArg (· ++ [']']) h
    simpa using this
  · left
    rw [join_eq he, h]
    simp

theorem edgeA_inj {a b : Edge} (ha : ∀ t ∈ [a.label, a.style.color], '"' ∉ t) (hb : ∀ t ∈ [b.label, b.style.color], '"' ∉ t) (h : edgeA a = edgeA b) :
    a.style = b.style ∧ a.label = b.label := by
  refine edgeTail_inj ha hb ?_
  have key : ∀ e : Edge, edgeAttrs e ≠ [] → edgeA e = " [".toList ++ join (edgeAttrs e) ++ "]".toList := fun e he => by
    unfold edgeA
    rw [if_pos (List.length_pos_iff.2 he)]
  have key0 : ∀ e : Edge, edgeAttrs e = [] → edgeA e = [] := fun e he => by
    unfold edgeA
    rw [he]; rfl
  have hne : ∀ x : Text, " [".toList ++ x ++ "]".toList ≠ [] := fun x => by simp
  by_cases h1 : edgeAttrs a = [] <;> by_cases h2 : edgeAttrs b = []
  · have e1 := edgeAttrs_eq a
    have e2 := edgeAttrs_eq b
    rw [h1] at e1
    rw [h2] at e2
    have := congrArg (· ++ [']']) (e1.symm.trans e2)
    simpa using this
  · rw [key0 a h1, key b h2] at h
    exact absurd h.symm (hne _)
  · rw [key0 b h2, key a h1] at h
    exact absurd h (hne _)
  · rw [key a h1, key b h2] at h
    have h := List.append_cancel_left (List.append_cancel_right h)
    rcases edgeA_norm a with e1 | ⟨e1, -⟩
    · rcases edgeA_norm b with e2 | ⟨e2, -⟩
      · rw [← e1, ← e2, h]
      · exact absurd e2 h2
    · exact absurd e1 h1

theorem edgeString_eq (d : Bool) (e : Edge) : edgeString d e = ' ' :: ' ' :: (e.src ++ ' ' :: '-' :: (if d then '>' else '-') :: ' ' :: (e.dst ++ edgeA e)) := by
  have c1 : "  ".toList = [' ', ' '] := rfl
  have c2 : " ".toList = [' '] := rfl
  have c3 : "->".toList = ['-', '>'] := rfl
  have c4 : "--".toList = ['-', '-'] := rfl
  show "  ".toList ++ e.src ++ " ".toList ++ (if d then "->".toList else "--".toList) ++ " ".toList ++ e.dst ++ edgeA e = _
  rw [c1, c2, c3, c4]
  cases d <;> simp

theorem edgeString_inj {d : Bool} {a b : Edge} (h1 : ∀ t ∈ [a.src, a.dst], ' ' ∉ t) (h2 : ∀ t ∈ [b.src, b.dst], ' ' ∉ t)
    (ha : ∀ t ∈ [a.label, a.style.color], '"' ∉ t) (hb : ∀ t ∈ [b.label, b.style.color], '"' ∉ t) (h : edgeString d a = edgeString d b) : a = b := by
  rw [edgeString_eq, edgeString_eq] at h
  have h := (List.cons.inj (List.cons.inj h).2).2
  obtain ⟨e1, h⟩ := cut (h1 _ (by simp)) (h2 _ (by simp)) h
  have h := (List.cons.inj (List.cons.inj (List.cons.inj h).2).2).2
  obtain ⟨e2, h⟩ := cutEnd (h1 _ (by simp)) (h2 _ (by simp)) (edgeA_hd a) (edgeA_hd b) h
  obtain ⟨e3, e4⟩ := edgeA_inj ha hb h
  obtain ⟨s, d, y, l⟩ := a
  obtain ⟨s', d', y', l'⟩ := b
  simp only at e1 e2 e3 e4
  subst e1 e2 e3 e4
  rfl

/-! ### lines -/

theorem unlines_inj : ∀ {ls ms : List Text}, (∀ l ∈ ls, '\n' ∉ l) → (∀ l ∈ ms, '\n' ∉ l) → unlines ls = unlines ms → ls = ms
  | [], [], _, _, _ => rfl
  | [], m :: ms, _, _, h => by simp [unlines] at h
  | l :: ls, [], _, _, h => by simp [unlines] at h
  | l :: ls, m :: ms, hl, hm, h => by
    simp only [unlines, List.flatMap_cons, List.append_assoc, List.singleton_append] at h
    obtain ⟨e, h⟩ := cut (hl l (by simp)) (hm m (by simp)) h
    rw [e, unlines_inj (fun x hx => hl x (by simp [hx])) (fun x hx => hm x (by simp [hx])) h]

/-- two lists up to a line that is in none of them -/
theorem cutL {β : Type} {c : β} : ∀ {x y s t : List β}, c ∉ x → c ∉ y → x ++ c :: s = y ++ c :: t → x = y ∧ s = t
  | [], [], s, t, _, _, h => ⟨rfl, (List.cons.inj h).2⟩
  | [], b :: y, s, t, _, hy, h => absurd (List.cons.inj h).1 (by simp at hy; exact hy.1)
  | a :: x, [], s, t, hx, _, h => absurd (List.cons.inj h).1.symm (by simp at hx; exact hx.1)
  | a :: x, b :: y, s, t, hx, hy, h => by
    simp only [List.mem_cons, not_or] at hx hy
    obtain ⟨h1, h2⟩ := List.cons.inj h
    obtain ⟨h3, h4⟩ := cutL hx.2 hy.2 h2
    exact ⟨by rw [h1, h3], h4⟩

theorem nl_qA {k v : Text} (hk : '\n' ∉ k) (hv : '\n' ∉ v) : '\n' ∉ qA k v := by
  unfold qA
  split
  · simp
  · simp [hk, hv]

theorem nl_shA (s : Shape) : '\n' ∉ shA s := by cases s <;> decide
theorem nl_tyA (s : EType) : '\n' ∉ tyA s := by cases s <;> decide

theorem nl_node {n : Node} (h1 : '\n' ∉ n.id) (h2 : '\n' ∉ n.label) (h3 : ∀ t ∈ [n.style.stroke, n.style.text, n.style.back], '\n' ∉ t) : '\n' ∉ nodeString n := by
  rw [nodeString_eq]
  simp only [List.mem_cons, List.mem_append, not_or]
  exact ⟨by decide, by decide, h1, by decide, by decide, h2, by decide, nl_shA _, nl_qA (by decide) (h3 _ (by simp)), nl_qA (by decide) (h3 _ (by simp)),
    nl_qA (by decide) (h3 _ (by simp)), by decide, by simp⟩

theorem nl_edge {d : Bool} {e : Edge} (h1 : ∀ t ∈ [e.src, e.dst], '\n' ∉ t) (h2 : ∀ t ∈ [e.label, e.style.color], '\n' ∉ t) : '\n' ∉ edgeString d e := by
  have hco : '\n' ∉ coA e.style.color := by
    have := h2 e.style.color (by simp)
    unfold coA
    split
    · simp
    · simp [kColor, kFont, this]
  have hA : '\n' ∉ edgeA e := by
    unfold edgeA
    split
    · next hl =>
      rcases edgeA_norm e with h | ⟨h, -⟩
      · intro hm
        have : '\n' ∈ coA e.style.color ++ (tyA e.style.type ++ (qA kLabel e.label ++ [']'])) := by
          rw [← h]
          simp only [List.mem_append] at hm ⊢
          rcases hm with (hm | hm) | hm
          · exact absurd hm (by decide)
          · exact .inl (.inr hm)
          · exact absurd hm (by decide)
        simp only [List.mem_append] at this
        rcases this with h | h | h | h
        · exact hco h
        · exact nl_tyA _ h
        · exact nl_qA (by decide) (h2 _ (by simp)) h
        · exact absurd h (by decide)
      · rw [h] at hl; simp at hl
    · simp
  rw [edgeString_eq]
  simp only [List.mem_cons, List.mem_append, not_or]
  exact ⟨by decide, by decide, h1 _ (by simp), by decide, by decide, by cases d <;> decide, by decide, h1 _ (by simp), hA⟩

theorem map_inj {β γ δ : Type} {f : β → γ} {g : β → δ} : ∀ {l m : List β}, (∀ a ∈ l, ∀ b ∈ m, f a = f b → g a = g b) → l.map f = m.map f → l.map g = m.map g
  | [], [], _, _ => rfl
  | [], b :: m, _, h => by simp at h
  | a :: l, [], _, h => by simp at h
  | a :: l, b :: m, hi, h => by
    simp only [List.map_cons, List.cons.injEq] at h ⊢
    exact ⟨hi a (by simp) b (by simp) h.1, map_inj (fun x hx y hy => hi x (by simp [hx]) y (by simp [hy])) h.2⟩

/-! ## theorems -/

/-- C70: two drawings with the same DOT text show the same. `_partial`: texts without quotes and ends of lines (`C70_quote_false`). -/
theorem C70_dot_partial {r r' : Rep} (hr : Clean r) (hr' : Clean r') (h : write r = write r') : Same r r' := by
  have lines : ∀ {r : Rep}, Clean r → ∀ l ∈ preamble r ++ nodeLines r ++ edgeLines r ++ ["}".toList], '\n' ∉ l := by
    intro r hr l hl
    have hnode : ∀ n ∈ r.nodes, '\n' ∉ nodeString n := fun n hn => nl_node (hr.id n hn).2 (hr.label n hn).2 fun t ht => (hr.style n hn t ht).2
    simp only [List.mem_append, List.mem_singleton] at hl
    rcases hl with ((hl | hl) | hl) | rfl
    · unfold preamble at hl
      simp only [List.mem_append, List.mem_singleton] at hl
      rcases hl with (rfl | hl) | rfl
      · cases r.directed <;> decide
      · split at hl
        · simp only [List.mem_singleton] at hl
          subst hl
          simp [hr.back.2]
        · simp at hl
      · simp
    · unfold nodeLines terminals nonTerminals at hl
      simp only [List.mem_append, List.mem_singleton] at hl
      rcases hl with hl | rfl
      · split at hl
        · simp only [List.mem_append, List.mem_singleton, List.mem_map, List.mem_filter] at hl
          rcases hl with ((rfl | ⟨n, hn, rfl⟩) | rfl) | ⟨n, hn, rfl⟩
          · decide
          · exact hnode n hn.1
          · decide
          · exact hnode n hn.1
        · obtain ⟨n, hn, rfl⟩ := List.mem_map.1 hl
          exact hnode n hn
      · simp
    · obtain ⟨e, he, rfl⟩ := List.mem_map.1 hl
      exact nl_edge (fun t ht => (hr.ends e he t ht).2) fun t ht => (hr.etext e he t ht).2
    · decide
  have h := unlines_inj (lines hr) (lines hr') h
  simp only [preamble, List.append_assoc, List.singleton_append, List.cons_append, List.nil_append] at h
  obtain ⟨hd, h⟩ := List.cons.inj h
  have hdir : r.directed = r'.directed := by
    revert hd
    cases r.directed <;> cases r'.directed <;> decide
  have hback : r.background = r'.background ∧ nodeLines r ++ (edgeLines r ++ ["}".toList]) = nodeLines r' ++ (edgeLines r' ++ ["}".toList]) := by
    by_cases h1 : r.background = [] <;> by_cases h2 : r'.background = []
    · simpa [h1, h2] using h
    · rw [if_neg (by simpa using h1), if_pos h2] at h
      have := (List.cons.inj h).1
      simp at this
    · rw [if_pos h1, if_neg (by simpa using h2)] at h
      have := (List.cons.inj h).1
      simp at this
    · rw [if_pos h1, if_pos h2] at h
      obtain ⟨e, h⟩ := List.cons.inj h
      exact ⟨(cut hr.back.1 hr'.back.1 (List.append_cancel_left e)).1, (List.cons.inj h).2⟩
  obtain ⟨hback, h⟩ := hback
  have hsp : ∀ n, nodeString n ≠ [] ∧ nodeString n ≠ "}".toList ∧ nodeString n ≠ "{ rank = same;".toList := fun n => by
    have c1 : "}".toList = ['}'] := rfl
    have c2 : "{ rank = same;".toList = '{' :: " rank = same;".toList := rfl
    rw [nodeString_eq, c1, c2]
    refine ⟨by simp, fun h => ?_, fun h => ?_⟩
    · exact absurd (List.cons.inj h).1 (by decide)
    · exact absurd (List.cons.inj h).1 (by decide)
  have hnm : ∀ (x : Text) (l : List Node), (∀ n, nodeString n ≠ x) → x ∉ l.map nodeString := fun x l hx hm => by
    obtain ⟨n, -, e⟩ := List.mem_map.1 hm
    exact hx n e
  have hcut : ∀ r : Rep, ([] : Text) ∉ (if r.align then ["{ rank = same;".toList] ++ (terminals r).map nodeString ++ ["}".toList] ++ (nonTerminals r).map nodeString
      else r.nodes.map nodeString) := fun r => by
    split
    · simp only [List.mem_append, List.mem_singleton, not_or]
      exact ⟨⟨⟨by simp, hnm _ _ fun n => (hsp n).1⟩, by simp⟩, hnm _ _ fun n => (hsp n).1⟩
    · exact hnm _ _ fun n => (hsp n).1
  have hnl : ∀ (r : Rep) (u : List Text), nodeLines r ++ u = (if r.align then ["{ rank = same;".toList] ++ (terminals r).map nodeString ++ ["}".toList] ++
      (nonTerminals r).map nodeString else r.nodes.map nodeString) ++ [] :: u := fun r u => by
    unfold nodeLines
    rw [List.append_assoc]
    rfl
  rw [hnl, hnl] at h
  obtain ⟨hN, h⟩ := cutL (hcut r) (hcut r') h
  have hE : r.edges = r'.edges := by
    have h := List.append_cancel_right h
    unfold edgeLines at h
    rw [← hdir] at h
    have := map_inj (g := id) (fun a ha b hb e => edgeString_inj (d := r.directed) (fun t ht => (hr.ends a ha t ht).1) (fun t ht => (hr'.ends b hb t ht).1)
      (fun t ht => (hr.etext a ha t ht).1) (fun t ht => (hr'.etext b hb t ht).1) e) h
    simpa using this
  have hinj : ∀ {l m : List Node}, (∀ n ∈ l, n ∈ r.nodes) → (∀ n ∈ m, n ∈ r'.nodes) → l.map nodeString = m.map nodeString → l.map seen = m.map seen := fun {l m} hl hm e =>
    map_inj (fun a ha b hb e => nodeString_inj (hr.id a (hl a ha)).1 (hr'.id b (hm b hb)).1 (hr.label a (hl a ha)).1 (hr'.label b (hm b hb)).1
      (fun t ht => (hr.style a (hl a ha) t ht).1) (fun t ht => (hr'.style b (hm b hb) t ht).1) e) e
  have hal : r.align = r'.align := by
    have hx : ∀ (l : List Node) (u : List Text), l.map nodeString ≠ "{ rank = same;".toList :: u := fun l u e => by
      cases l with
      | nil => cases e
      | cons n l => exact (hsp n).2.2 (List.cons.inj e).1
    cases h1 : r.align <;> cases h2 : r'.align
    · rfl
    · rw [h1, h2] at hN
      exact absurd hN (hx _ _)
    · rw [h1, h2] at hN
      exact absurd hN.symm (hx _ _)
    · rfl
  refine ⟨hal, hdir, hback, hE, fun ha => ?_, fun ha => ?_⟩
  · rw [← hal, ha] at hN
    exact hinj (fun _ h => h) (fun _ h => h) (by simpa using hN)
  · rw [← hal, ha] at hN
    simp only [if_true, List.append_assoc, List.singleton_append, List.cons_append, List.nil_append] at hN
    obtain ⟨e1, e2⟩ := cutL (hnm _ _ fun n => (hsp n).2.1) (hnm _ _ fun n => (hsp n).2.1) (List.cons.inj hN).2
    intro b
    cases b
    · have := hinj (fun n h => (List.mem_filter.1 h).1) (fun n h => (List.mem_filter.1 h).1) e2
      simpa [nonTerminals] using this
    · have := hinj (fun n h => (List.mem_filter.1 h).1) (fun n h => (List.mem_filter.1 h).1) e1
      simpa [terminals] using this

def plain : NodeStyle := ⟨.default, [], [], []⟩

/-- C70, refuted part: quotes in labels are written as they are, so a label can be taken for a color -/
theorem C70_quote_false : ∃ r r' : Rep, write r = write r' ∧ ¬ Same r r' := by
  refine ⟨⟨false, true, [], [⟨"id0".toList, "a\", color=\"red".toList, plain, true⟩], []⟩,
    ⟨false, true, [], [⟨"id0".toList, "a".toList, ⟨.default, "red".toList, [], []⟩, true⟩], []⟩, by decide, fun h => ?_⟩
  exact absurd (h.nodes rfl) (by decide)

/-! ### Examples -/

/-- a drawing of `~a` with all kinds of attributes -/
def exR (al : Bool) : Rep where
  align := al
  directed := true
  background := "#ffffff".toList
  nodes := [⟨"id0".toList, "¬".toList, plain, false⟩, ⟨"id1".toList, "a".toList, ⟨.circle, "#000000".toList, [], "#ea2027".toList⟩, true⟩]
  edges := [⟨"id0".toList, "id1".toList, ⟨.dotted, "#004f93".toList⟩, "l".toList⟩]

example : String.ofList (write (exR false)) = "digraph G {\n  bgcolor=\"#ffffff\"\n\n  id0 [label=\"¬\"]\n  id1 [label=\"a\", shape=circle, color=\"#000000\", style=filled, fillcolor=\"#ea2027\"]\n\n  id0 -> id1 [color=\"#004f93\", fontcolor=\"#004f93\", style=dotted, label=\"l\"]\n}\n" := by
  decide +kernel

example : (write (exR true)).length = (write (exR false)).length + 17 := by decide +kernel

/-- the hypotheses of `C70_dot_partial` -/
example : Clean (exR true) := ⟨by decide +kernel, by decide +kernel, by decide +kernel, by decide +kernel, by decide +kernel, by decide +kernel⟩

end Verif.Dot
