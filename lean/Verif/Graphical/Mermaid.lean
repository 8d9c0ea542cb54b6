import Verif.Graphical.Dot
/-!
# Drawings as Mermaid text (C71)

Model of /repo/graphical/mermaid_writer.go on the drawings of `Dot.lean`; the writer is one that never fails. A style is never nil.
-/
namespace Verif.Dot

/-! ## model -/

/-- styling.go:98-100 -/
def NodeStyle.hasStyle (s : NodeStyle) : Bool := decide (s.shape ≠ .default ∨ s.stroke ≠ [] ∨ s.text ≠ [] ∨ s.back ≠ [])

/-- styling.go:148-150 -/
def EdgeStyle.hasStyle (s : EdgeStyle) : Bool := decide (s.type ≠ .default ∨ s.color ≠ [])

/-- `strings.Join` with a comma -/
def joinC : List Text → Text
  | [] => []
  | [a] => a
  | a :: b :: l => a ++ ",".toList ++ joinC (b :: l)

/-- mermaid_writer.go:12, 95-109 -/
def brackets (s : Shape) : Text × Text :=
  match (if s ≠ .default then s else .ellipse) with
  | .rectangle => ("[".toList, "]".toList)
  | .circle => ("((".toList, "))".toList)
  | _ => ("([".toList, "])".toList)

/-- mermaid_writer.go:93-111 `mermaidNodeString` -/
def mNode (n : Node) : Text := n.id ++ (brackets n.style.shape).1 ++ "\"".toList ++ n.label ++ "\"".toList ++ (brackets n.style.shape).2

/-- mermaid_writer.go:113-124 `mermaidEdgeSymbolString` -/
def mSymbol (d : Bool) (e : Edge) : Text :=
  let c := if d then "-->".toList else "---".toList
  if e.label = [] then c else c ++ "|\"".toList ++ e.label ++ "\"|".toList

/-- mermaid_writer.go:130-139 -/
def mNodeAttrs (s : NodeStyle) : List Text :=
  (if s.stroke ≠ [] then ["stroke:".toList ++ s.stroke] else []) ++ (if s.text ≠ [] then ["color:".toList ++ s.text] else []) ++
  (if s.back ≠ [] then ["fill:".toList ++ s.back] else [])

/-- mermaid_writer.go:126-141 `mermaidNodeStyleString` -/
def mNodeStyle (id : Text) (s : NodeStyle) : Text :=
  if !s.hasStyle || (s.stroke.isEmpty && s.text.isEmpty && s.back.isEmpty) then []
  else "    style ".toList ++ id ++ " ".toList ++ joinC (mNodeAttrs s)

/-- mermaid_writer.go:151-158, with the widths of 13-14 -/
def mType : EType → List Text
  | .default => []
  | .solid => ["stroke-width:2".toList]
  | .bold => ["stroke-width:4".toList]
  | .dotted => ["stroke-width:2,stroke-dasharray:3".toList]

/-- mermaid_writer.go:147-158 -/
def mEdgeAttrs (s : EdgeStyle) : List Text := (if s.color ≠ [] then ["stroke:".toList ++ s.color] else []) ++ mType s.type

/-- mermaid_writer.go:143-160 `mermaidEdgeStyleString` -/
def mEdgeStyle (i : Nat) (s : EdgeStyle) : Text :=
  if !s.hasStyle then [] else "    linkStyle ".toList ++ Nat.toDigits 10 i ++ " ".toList ++ joinC (mEdgeAttrs s)

/-- mermaid_writer.go:68-73 -/
def mNodeLines (n : Node) : List Text := ("  ".toList ++ mNode n) :: if mNodeStyle n.id n.style ≠ [] then [mNodeStyle n.id n.style] else []

/-- mermaid_writer.go:82-88 -/
def mEdgeLine (d : Bool) (i : Nat) (e : Edge) : List Text :=
  ("  ".toList ++ e.src ++ " ".toList ++ mSymbol d e ++ " ".toList ++ e.dst) :: if mEdgeStyle i e.style ≠ [] then [mEdgeStyle i e.style] else []

/-- mermaid_writer.go:79-91; `i`: the counter -/
def mEdgeLines (d : Bool) : Nat → List Edge → List Text
  | _, [] => []
  | i, e :: es => mEdgeLine d i e ++ mEdgeLines d (i + 1) es

/-- mermaid_writer.go:48-59 `WriteMermaidToWriter` -/
def mWrite (r : Rep) : Text := unlines ("graph TD".toList :: (r.nodes.flatMap mNodeLines ++ [] :: mEdgeLines r.directed 0 r.edges))

/-! ## specification -/

/-- what one sees of a node; without a shape it is an ellipse -/
def mSeen (n : Node) : Text × Text × NodeStyle := (n.id, n.label, { n.style with shape := if n.style.shape = .default then .ellipse else n.style.shape })

/-- the two drawings show the same in Mermaid, which has no background and no alignment; the direction is seen on the edges -/
structure MSame (r r' : Rep) : Prop where
  nodes : r.nodes.map mSeen = r'.nodes.map mSeen
  edges : r.edges = r'.edges
  directed : r.edges ≠ [] → r.directed = r'.directed

/-- ids like those of the generators; labels without quotes and colors without commas; nothing has the end of a line -/
structure MClean (r : Rep) : Prop where
  id : ∀ n ∈ r.nodes, n.id ≠ [] ∧ ' ' ∉ n.id ∧ '[' ∉ n.id ∧ '(' ∉ n.id ∧ '\n' ∉ n.id
  label : ∀ n ∈ r.nodes, '"' ∉ n.label ∧ '\n' ∉ n.label
  style : ∀ n ∈ r.nodes, ∀ t ∈ [n.style.stroke, n.style.text, n.style.back], ',' ∉ t ∧ '\n' ∉ t
  ends : ∀ e ∈ r.edges, e.src ≠ [] ∧ ∀ t ∈ [e.src, e.dst], ' ' ∉ t ∧ '\n' ∉ t
  elabel : ∀ e ∈ r.edges, '"' ∉ e.label ∧ '\n' ∉ e.label
  color : ∀ e ∈ r.edges, ',' ∉ e.style.color ∧ '\n' ∉ e.style.color

/-! ## lemmas -/

/-- an optional attribute -/
def oA (k v : Text) : Text := if v = [] then [] else k ++ v

theorem oA_hd {k v s : Text} (hk : Hd ',' k) (hk0 : k ≠ []) (hs : Hd ',' s) : Hd ',' (oA k v ++ s) := by
  unfold oA
  split
  · simpa using hs
  · rcases hk with rfl | ⟨u, rfl⟩
    · exact absurd rfl hk0
    · exact .inr ⟨_, rfl⟩

theorem oA_inj {k v w s t : Text} (hv : ',' ∉ v) (hw : ',' ∉ w) (hs : Hd ',' s) (ht : Hd ',' t) (ns : ¬ k <+: s) (nt : ¬ k <+: t) (h : oA k v ++ s = oA k w ++ t) :
    v = w ∧ s = t := by
  unfold oA at h
  by_cases h1 : v = [] <;> by_cases h2 : w = []
  · simpa [h1, h2] using h
  · refine absurd ?_ ns
    rw [if_pos h1, if_neg h2] at h
    simp only [List.nil_append, List.append_assoc] at h
    rw [h]; exact List.prefix_append _ _
  · refine absurd ?_ nt
    rw [if_neg h1, if_pos h2] at h
    simp only [List.nil_append, List.append_assoc] at h
    rw [← h]; exact List.prefix_append _ _
  · rw [if_neg h1, if_neg h2] at h
    simp only [List.append_assoc] at h
    exact cutEnd hv hw hs ht (List.append_cancel_left h)

theorem joinC_eq : ∀ {l : List Text}, l ≠ [] → ",".toList ++ joinC l = l.flatMap fun a => ",".toList ++ a
  | [a], _ => by simp [joinC]
  | a :: b :: l, _ => by
    rw [joinC, List.flatMap_cons, ← joinC_eq (l := b :: l) (by simp)]
    simp only [List.append_assoc]

def kS : Text := [',', 's', 't', 'r', 'o', 'k', 'e', ':']
def kC : Text := [',', 'c', 'o', 'l', 'o', 'r', ':']
def kF : Text := [',', 'f', 'i', 'l', 'l', ':']

theorem mNodeAttrs_eq (s : NodeStyle) : (mNodeAttrs s).flatMap (fun a => ",".toList ++ a) = oA kS s.stroke ++ (oA kC s.text ++ (oA kF s.back ++ [])) := by
  have c1 : kS = ",".toList ++ "stroke:".toList := rfl
  have c2 : kC = ",".toList ++ "color:".toList := rfl
  have c3 : kF = ",".toList ++ "fill:".toList := rfl
  unfold mNodeAttrs oA
  rw [c1, c2, c3, List.flatMap_append, List.flatMap_append]
  simp only [List.append_assoc]
  congr 1
  · by_cases h : s.stroke = [] <;> simp [h]
  congr 1
  · by_cases h : s.text = [] <;> simp [h]
  · by_cases h : s.back = [] <;> simp [h]

theorem mNodeAttrs_inj {a b : NodeStyle} (ha : ∀ t ∈ [a.stroke, a.text, a.back], ',' ∉ t) (hb : ∀ t ∈ [b.stroke, b.text, b.back], ',' ∉ t)
    (h : (mNodeAttrs a).flatMap (fun a => ",".toList ++ a) = (mNodeAttrs b).flatMap (fun a => ",".toList ++ a)) :
    a.stroke = b.stroke ∧ a.text = b.text ∧ a.back = b.back := by
  have n3 : ¬ kF <+: ([] : Text) := by simp [kF]
  have n2 : ∀ x : Text, ¬ kC <+: oA kF x ++ [] := fun x => by unfold oA; split <;> simp [kC, kF]
  have n1 : ∀ y x : Text, ¬ kS <+: oA kC y ++ (oA kF x ++ []) := fun y x => by unfold oA; split <;> split <;> simp [kC, kF, kS]
  have d3 : ∀ x : Text, Hd ',' (oA kF x ++ []) := fun x => oA_hd (.inr ⟨_, rfl⟩) (by simp [kF]) (.inl rfl)
  have d2 : ∀ y x : Text, Hd ',' (oA kC y ++ (oA kF x ++ [])) := fun y x => oA_hd (.inr ⟨_, rfl⟩) (by simp [kC]) (d3 x)
  rw [mNodeAttrs_eq, mNodeAttrs_eq] at h
  obtain ⟨h1, h⟩ := oA_inj (ha _ (by simp)) (hb _ (by simp)) (d2 _ _) (d2 _ _) (n1 _ _) (n1 _ _) h
  obtain ⟨h2, h⟩ := oA_inj (ha _ (by simp)) (hb _ (by simp)) (d3 _) (d3 _) (n2 _) (n2 _) h
  obtain ⟨h3, -⟩ := oA_inj (ha _ (by simp)) (hb _ (by simp)) (.inl rfl) (.inl rfl) n3 n3 h
  exact ⟨h1, h2, h3⟩

/-- all attributes are written or there are none -/
theorem mNodeStyle_cases (id : Text) (s : NodeStyle) : (mNodeStyle id s = [] ∧ mNodeAttrs s = []) ∨
    (mNodeStyle id s = [' ', ' ', ' '] ++ (" style ".toList ++ id ++ " ".toList ++ joinC (mNodeAttrs s)) ∧ mNodeAttrs s ≠ []) := by
  unfold mNodeStyle NodeStyle.hasStyle mNodeAttrs
  by_cases h1 : s.stroke = []
  · by_cases h2 : s.text = []
    · by_cases h3 : s.back = []
      · left; simp [h1, h2, h3]
      · right; simp [h1, h2, h3]
    · right; simp [h1, h2]
  · right; simp [h1]

theorem mEdgeStyle_cases (i : Nat) (s : EdgeStyle) : (mEdgeStyle i s = [] ∧ mEdgeAttrs s = []) ∨
    (mEdgeStyle i s = [' ', ' ', ' '] ++ (" linkStyle ".toList ++ Nat.toDigits 10 i ++ " ".toList ++ joinC (mEdgeAttrs s)) ∧ mEdgeAttrs s ≠ []) := by
  unfold mEdgeStyle EdgeStyle.hasStyle mEdgeAttrs
  obtain ⟨y, c⟩ := s
  by_cases h1 : c = [] <;> cases y <;> simp [h1, mType]

theorem mEdgeAttrs_inj {a b : EdgeStyle} (ha : ',' ∉ a.color) (hb : ',' ∉ b.color)
    (h : (mEdgeAttrs a).flatMap (fun a => ",".toList ++ a) = (mEdgeAttrs b).flatMap (fun a => ",".toList ++ a)) : a = b := by
  have e : ∀ s : EdgeStyle, (mEdgeAttrs s).flatMap (fun a => ",".toList ++ a) = oA kS s.color ++ (mType s.type).flatMap fun a => ",".toList ++ a := fun s => by
    have c1 : kS = ",".toList ++ "stroke:".toList := rfl
    unfold mEdgeAttrs oA
    rw [c1, List.flatMap_append]
    congr 1
    by_cases h : s.color = [] <;> simp [h]
  have hd : ∀ y : EType, Hd ',' ((mType y).flatMap fun a => ",".toList ++ a) := fun y => by
    cases y
    · exact .inl rfl
    · exact .inr ⟨_, rfl⟩
    · exact .inr ⟨_, rfl⟩
    · exact .inr ⟨_, rfl⟩
  have np : ∀ y : EType, ¬ kS <+: (mType y).flatMap fun a => ",".toList ++ a := fun y => by cases y <;> decide
  rw [e, e] at h
  obtain ⟨h1, ht⟩ := oA_inj ha hb (hd _) (hd _) (np _) (np _) h
  clear h
  obtain ⟨y, c⟩ := a
  obtain ⟨y', c'⟩ := b
  simp only at h1 ht
  subst h1
  congr 1
  have k : ∀ y y' : EType, (mType y).flatMap (fun a => ",".toList ++ a) = (mType y').flatMap (fun a => ",".toList ++ a) → y = y' := fun y y' => by
    cases y <;> cases y' <;> decide
  exact k y y' ht

/-- the first characters up to one of a set -/
theorem cutP {p : Char → Bool} : ∀ {x y s t : Text} {c d : Char}, (∀ a ∈ x, p a = false) → (∀ a ∈ y, p a = false) → p c = true → p d = true → x ++ c :: s = y ++ d :: t →
    x = y ∧ c = d ∧ s = t
  | [], [], s, t, c, d, _, _, _, _, h => ⟨rfl, (List.cons.inj h).1, (List.cons.inj h).2⟩
  | [], b :: y, s, t, c, d, _, hy, hc, _, h => by
    have := hy b (by simp)
    rw [← (List.cons.inj h).1, hc] at this
    cases this
  | a :: x, [], s, t, c, d, hx, _, _, hd, h => by
    have := hx a (by simp)
    rw [(List.cons.inj h).1, hd] at this
    cases this
  | a :: x, b :: y, s, t, c, d, hx, hy, hc, hd, h => by
    obtain ⟨h1, h2⟩ := List.cons.inj h
    obtain ⟨h3, h4⟩ := cutP (fun z hz => hx z (by simp [hz])) (fun z hz => hy z (by simp [hz])) hc hd h2
    exact ⟨by rw [h1, h3], h4⟩

def shp (s : Shape) : Shape := if s = .default then .ellipse else s

theorem mNode_inj {n m : Node} (h1 : '[' ∉ n.id ∧ '(' ∉ n.id) (h2 : '[' ∉ m.id ∧ '(' ∉ m.id) (h3 : '"' ∉ n.label) (h4 : '"' ∉ m.label) (h : mNode n = mNode m) :
    n.id = m.id ∧ n.label = m.label ∧ shp n.style.shape = shp m.style.shape := by
  have hid : ∀ {x : Text}, '[' ∉ x ∧ '(' ∉ x → ∀ a ∈ x, (a == '[' || a == '(') = false := fun hx a ha => by
    simp only [Bool.or_eq_false_iff, beq_eq_false_iff_ne]
    exact ⟨fun e => hx.1 (e ▸ ha), fun e => hx.2 (e ▸ ha)⟩
  have f : ∀ s : Shape, ∃ (c : Char) (u : Text), (c == '[' || c == '(') = true ∧ (brackets s).1 = c :: u ∧
      ((shp s = .rectangle ∧ c = '[' ∧ u = []) ∨ (shp s = .circle ∧ c = '(' ∧ u = ['(']) ∨ (shp s = .ellipse ∧ c = '(' ∧ u = ['['])) := fun s => by
    cases s
    · exact ⟨'(', ['['], by decide, rfl, .inr (.inr ⟨rfl, rfl, rfl⟩)⟩
    · exact ⟨'[', [], by decide, rfl, .inl ⟨rfl, rfl, rfl⟩⟩
    · exact ⟨'(', ['['], by decide, rfl, .inr (.inr ⟨rfl, rfl, rfl⟩)⟩
    · exact ⟨'(', ['('], by decide, rfl, .inr (.inl ⟨rfl, rfl, rfl⟩)⟩
  obtain ⟨c, u, c1, c2, c3⟩ := f n.style.shape
  obtain ⟨d, w, d1, d2, d3⟩ := f m.style.shape
  have q : "\"".toList = ['"'] := rfl
  unfold mNode at h
  rw [c2, d2, q] at h
  simp only [List.append_assoc, List.cons_append, List.nil_append] at h
  obtain ⟨e1, e2, hh⟩ := cutP (hid h1) (hid h2) c1 d1 h
  clear h
  subst e2
  have key : u = w → n.id = m.id ∧ n.label = m.label ∧ shp n.style.shape = shp m.style.shape := by
    rintro rfl
    obtain ⟨e3, -⟩ := cut h3 h4 (List.cons.inj (List.append_cancel_left hh)).2
    refine ⟨e1, e3, ?_⟩
    rcases c3 with ⟨a1, rfl, rfl⟩ | ⟨a1, rfl, rfl⟩ | ⟨a1, rfl, rfl⟩ <;> rcases d3 with ⟨b1, b2, b3⟩ | ⟨b1, b2, b3⟩ | ⟨b1, b2, b3⟩ <;>
      first | exact a1.trans b1.symm | exact absurd b2 (by decide) | exact absurd b3 (by decide)
  refine key ?_
  rcases c3 with ⟨a1, rfl, rfl⟩ | ⟨a1, rfl, rfl⟩ | ⟨a1, rfl, rfl⟩ <;> rcases d3 with ⟨b1, b2, rfl⟩ | ⟨b1, b2, rfl⟩ | ⟨b1, b2, rfl⟩ <;>
    first | rfl | exact absurd b2 (by decide) | exact absurd (List.cons.inj hh).1 (by decide)

/-- not a line of a style: empty, or with at most two spaces in the beginning -/
def NoSty (l : Text) : Prop := ∀ u, l ≠ [' ', ' ', ' '] ++ u

theorem noSty_cons {x u : Text} (hx : x ≠ []) (hs : ' ' ∉ x) : NoSty (' ' :: ' ' :: (x ++ u)) := fun w h => by
  cases x with
  | nil => exact hx rfl
  | cons a x =>
    have := (List.cons.inj (List.cons.inj (List.cons.inj h).2).2).1
    subst this
    exact hs (by simp)

/-- an optional line of a style before a line that is none -/
theorem opt_line {x y : Text} {s t : List Text} (hx : x = [] ∨ ∃ u, x = [' ', ' ', ' '] ++ u) (hy : y = [] ∨ ∃ u, y = [' ', ' ', ' '] ++ u)
    (hs : ∀ l ∈ s.head?, NoSty l) (ht : ∀ l ∈ t.head?, NoSty l) (h : (if x ≠ [] then [x] else []) ++ s = (if y ≠ [] then [y] else []) ++ t) : x = y ∧ s = t := by
  by_cases h1 : x = [] <;> by_cases h2 : y = []
  · subst h1 h2; simpa using h
  · obtain ⟨u, hu⟩ := hy.resolve_left h2
    rw [if_neg (by simpa using h1), if_pos h2] at h
    simp only [List.nil_append, List.singleton_append] at h
    exact absurd hu (hs y (by rw [h]; simp) u)
  · obtain ⟨u, hu⟩ := hx.resolve_left h1
    rw [if_pos h1, if_neg (by simpa using h2)] at h
    simp only [List.nil_append, List.singleton_append] at h
    exact absurd hu (ht x (by rw [← h]; simp) u)
  · rw [if_pos h1, if_pos h2] at h
    exact List.cons.inj h

theorem nodeStyle_opt (id : Text) (s : NodeStyle) : mNodeStyle id s = [] ∨ ∃ u, mNodeStyle id s = [' ', ' ', ' '] ++ u := by
  rcases mNodeStyle_cases id s with h | h
  · exact .inl h.1
  · exact .inr ⟨_, h.1⟩

theorem edgeStyle_opt (i : Nat) (s : EdgeStyle) : mEdgeStyle i s = [] ∨ ∃ u, mEdgeStyle i s = [' ', ' ', ' '] ++ u := by
  rcases mEdgeStyle_cases i s with h | h
  · exact .inl h.1
  · exact .inr ⟨_, h.1⟩

theorem mNodeStyle_inj {id : Text} {a b : NodeStyle} (ha : ∀ t ∈ [a.stroke, a.text, a.back], ',' ∉ t) (hb : ∀ t ∈ [b.stroke, b.text, b.back], ',' ∉ t)
    (h : mNodeStyle id a = mNodeStyle id b) : a.stroke = b.stroke ∧ a.text = b.text ∧ a.back = b.back := by
  refine mNodeAttrs_inj ha hb ?_
  rcases mNodeStyle_cases id a with ⟨h1, h2⟩ | ⟨h1, h2⟩ <;> rcases mNodeStyle_cases id b with ⟨h3, h4⟩ | ⟨h3, h4⟩
  · rw [h2, h4]
  · rw [h1, h3] at h; cases h
  · rw [h1, h3] at h; cases h
  · rw [h1, h3] at h
    have h := List.append_cancel_left (List.append_cancel_left h)
    rw [← joinC_eq h2, ← joinC_eq h4, h]

theorem mEdgeStyle_inj {i : Nat} {a b : EdgeStyle} (ha : ',' ∉ a.color) (hb : ',' ∉ b.color) (h : mEdgeStyle i a = mEdgeStyle i b) : a = b := by
  refine mEdgeAttrs_inj ha hb ?_
  rcases mEdgeStyle_cases i a with ⟨h1, h2⟩ | ⟨h1, h2⟩ <;> rcases mEdgeStyle_cases i b with ⟨h3, h4⟩ | ⟨h3, h4⟩
  · rw [h2, h4]
  · rw [h1, h3] at h; cases h
  · rw [h1, h3] at h; cases h
  · rw [h1, h3] at h
    have h := List.append_cancel_left (List.append_cancel_left h)
    rw [← joinC_eq h2, ← joinC_eq h4, h]

/-- what the theorem needs of a node -/
def NOk (n : Node) : Prop := (n.id ≠ [] ∧ ' ' ∉ n.id ∧ '[' ∉ n.id ∧ '(' ∉ n.id) ∧ '"' ∉ n.label ∧ ∀ t ∈ [n.style.stroke, n.style.text, n.style.back], ',' ∉ t

theorem node_first {n : Node} (h : NOk n) : NoSty ("  ".toList ++ mNode n) := by
  have : "  ".toList ++ mNode n = ' ' :: ' ' :: (n.id ++ ((brackets n.style.shape).1 ++ ("\"".toList ++ (n.label ++ ("\"".toList ++ (brackets n.style.shape).2))))) := by
    unfold mNode
    simp only [List.append_assoc]
    rfl
  rw [this]
  exact noSty_cons h.1.1 h.1.2.1

theorem nodes_inj : ∀ {l m : List Node} {s t : List Text}, (∀ n ∈ l, NOk n) → (∀ n ∈ m, NOk n) → l.flatMap mNodeLines ++ [] :: s = m.flatMap mNodeLines ++ [] :: t →
    l.map mSeen = m.map mSeen ∧ s = t
  | [], [], s, t, _, _, h => ⟨rfl, (List.cons.inj h).2⟩
  | [], m :: ms, s, t, _, _, h => by
    have := (List.cons.inj h).1
    cases this
  | n :: ns, [], s, t, _, _, h => by
    have := (List.cons.inj h).1
    cases this
  | n :: ns, m :: ms, s, t, hl, hm, h => by
    have hn := hl n (by simp)
    have hm' := hm m (by simp)
    rw [List.flatMap_cons, List.flatMap_cons, List.append_assoc, List.append_assoc] at h
    unfold mNodeLines at h
    simp only [List.cons_append] at h
    obtain ⟨h1, h⟩ := List.cons.inj h
    obtain ⟨e1, e2, e3⟩ := mNode_inj hn.1.2.2 hm'.1.2.2 hn.2.1 hm'.2.1 (List.append_cancel_left h1)
    have hd : ∀ (k : List Node) (u : List Text), (∀ n ∈ k, NOk n) → ∀ l ∈ (k.flatMap mNodeLines ++ [] :: u).head?, NoSty l := fun k u hk l hl => by
      cases k with
      | nil =>
        simp at hl
        subst hl
        exact fun u h => by cases h
      | cons a k =>
        simp only [List.flatMap_cons, mNodeLines, List.cons_append, List.head?_cons, Option.mem_def, Option.some.injEq] at hl
        subst hl
        exact node_first (hk a (by simp))
    obtain ⟨h2, h⟩ := opt_line (nodeStyle_opt _ _) (nodeStyle_opt _ _) (hd ns s fun n hn => hl n (by simp [hn])) (hd ms t fun n hn => hm n (by simp [hn])) h
    rw [e1] at h2
    obtain ⟨f1, f2, f3⟩ := mNodeStyle_inj hn.2.2 hm'.2.2 h2
    obtain ⟨i1, i2⟩ := nodes_inj (fun n hn => hl n (by simp [hn])) (fun n hn => hm n (by simp [hn])) h
    refine ⟨?_, i2⟩
    rw [List.map_cons, List.map_cons, i1]
    congr 1
    unfold shp at e3
    unfold mSeen
    rw [e1, e2, e3]
    simp only [f1, f2, f3]

/-- what the theorem needs of an edge -/
def EOk (e : Edge) : Prop := (e.src ≠ [] ∧ ' ' ∉ e.src ∧ ' ' ∉ e.dst) ∧ '"' ∉ e.label ∧ ',' ∉ e.style.color

def mEdgeText (d : Bool) (e : Edge) : Text := "  ".toList ++ e.src ++ " ".toList ++ mSymbol d e ++ " ".toList ++ e.dst

theorem mEdgeText_eq (d : Bool) (e : Edge) : mEdgeText d e = ' ' :: ' ' :: (e.src ++ ' ' :: '-' :: '-' :: (if d then '>' else '-') ::
    (if e.label = [] then ' ' :: e.dst else '|' :: '"' :: (e.label ++ '"' :: '|' :: ' ' :: e.dst))) := by
  have c1 : "  ".toList = [' ', ' '] := rfl
  have c2 : " ".toList = [' '] := rfl
  have c3 : "-->".toList = ['-', '-', '>'] := rfl
  have c4 : "---".toList = ['-', '-', '-'] := rfl
  have c5 : "|\"".toList = ['|', '"'] := rfl
  have c6 : "\"|".toList = ['"', '|'] := rfl
  unfold mEdgeText mSymbol
  rw [c1, c2, c3, c4, c5, c6]
  by_cases h : e.label = [] <;> cases d <;> simp [h]

theorem mEdgeText_inj {d d' : Bool} {a b : Edge} (ha : EOk a) (hb : EOk b) (h : mEdgeText d a = mEdgeText d' b) : a.src = b.src ∧ a.dst = b.dst ∧ a.label = b.label ∧ d = d' := by
  rw [mEdgeText_eq, mEdgeText_eq] at h
  have h := (List.cons.inj (List.cons.inj h).2).2
  obtain ⟨e1, h⟩ := cut ha.1.2.1 hb.1.2.1 h
  obtain ⟨hd, h⟩ := List.cons.inj (List.cons.inj (List.cons.inj h).2).2
  have hdd : d = d' := by
    revert hd
    cases d <;> cases d' <;> decide
  by_cases h1 : a.label = [] <;> by_cases h2 : b.label = []
  · rw [if_pos h1, if_pos h2] at h
    exact ⟨e1, (List.cons.inj h).2, by rw [h1, h2], hdd⟩
  · rw [if_pos h1, if_neg h2] at h
    exact absurd (List.cons.inj h).1 (by decide)
  · rw [if_neg h1, if_pos h2] at h
    exact absurd (List.cons.inj h).1 (by decide)
  · rw [if_neg h1, if_neg h2] at h
    obtain ⟨e2, h⟩ := cut ha.2.1 hb.2.1 (List.cons.inj (List.cons.inj h).2).2
    exact ⟨e1, (List.cons.inj (List.cons.inj h).2).2, e2, hdd⟩

theorem edges_inj {d d' : Bool} : ∀ {l m : List Edge} {i : Nat}, (∀ e ∈ l, EOk e) → (∀ e ∈ m, EOk e) → mEdgeLines d i l = mEdgeLines d' i m → l = m ∧ (l ≠ [] → d = d')
  | [], [], i, _, _, _ => ⟨rfl, fun h => absurd rfl h⟩
  | [], m :: ms, i, _, _, h => by cases h
  | n :: ns, [], i, _, _, h => by cases h
  | a :: ns, b :: ms, i, hl, hm, h => by
    have ha := hl a (by simp)
    have hb := hm b (by simp)
    rw [mEdgeLines, mEdgeLines] at h
    unfold mEdgeLine at h
    simp only [List.cons_append] at h
    obtain ⟨h1, h⟩ := List.cons.inj h
    obtain ⟨e1, e2, e3, e4⟩ := mEdgeText_inj ha hb h1
    have hd : ∀ (d : Bool) (j : Nat) (k : List Edge), (∀ n ∈ k, EOk n) → ∀ l ∈ (mEdgeLines d j k).head?, NoSty l := fun d j k hk l hl => by
      cases k with
      | nil => simp [mEdgeLines] at hl
      | cons a k =>
        simp only [mEdgeLines, mEdgeLine, List.cons_append, List.head?_cons, Option.mem_def, Option.some.injEq] at hl
        subst hl
        show NoSty (mEdgeText d a)
        rw [mEdgeText_eq]
        exact noSty_cons (hk a (by simp)).1.1 (hk a (by simp)).1.2.1
    obtain ⟨h2, h⟩ := opt_line (edgeStyle_opt _ _) (edgeStyle_opt _ _) (hd _ _ ns fun n hn => hl n (by simp [hn])) (hd _ _ ms fun n hn => hm n (by simp [hn])) h
    have e5 := mEdgeStyle_inj ha.2.2 hb.2.2 h2
    obtain ⟨i1, -⟩ := edges_inj (fun n hn => hl n (by simp [hn])) (fun n hn => hm n (by simp [hn])) h
    refine ⟨?_, fun _ => e4⟩
    rw [i1]
    congr 1
    obtain ⟨s, t, y, l⟩ := a
    obtain ⟨s', t', y', l'⟩ := b
    simp only at e1 e2 e3 e5
    subst e1 e2 e3 e5
    rfl

theorem nl_joinC {l : List Text} (h : ∀ x ∈ l, '\n' ∉ x) : '\n' ∉ joinC l := by
  by_cases hl : l = []
  · subst hl; simp [joinC]
  · intro hm
    have : '\n' ∈ ",".toList ++ joinC l := List.mem_append_right _ hm
    rw [joinC_eq hl] at this
    obtain ⟨x, hx, h'⟩ := List.mem_flatMap.1 this
    rcases List.mem_append.1 h' with h' | h'
    · exact absurd h' (by decide)
    · exact h x hx h'

theorem nl_mNode {n : Node} (h1 : '\n' ∉ n.id) (h2 : '\n' ∉ n.label) (h3 : ∀ t ∈ [n.style.stroke, n.style.text, n.style.back], '\n' ∉ t) : ∀ l ∈ mNodeLines n, '\n' ∉ l := by
  intro l hl
  unfold mNodeLines at hl
  rcases List.mem_cons.1 hl with rfl | hl
  · have hb : ∀ s : Shape, '\n' ∉ (brackets s).1 ∧ '\n' ∉ (brackets s).2 := fun s => by cases s <;> decide
    unfold mNode
    simp only [List.mem_append, not_or]
    exact ⟨by decide, ⟨⟨⟨⟨h1, (hb _).1⟩, by decide⟩, h2⟩, by decide⟩, (hb _).2⟩
  · split at hl
    · simp only [List.mem_singleton] at hl
      subst hl
      unfold mNodeStyle
      split
      · simp
      · simp only [List.mem_append, not_or]
        refine ⟨⟨⟨by decide, h1⟩, by decide⟩, nl_joinC fun x hx => ?_⟩
        unfold mNodeAttrs at hx
        simp only [List.mem_append] at hx
        rcases hx with (hx | hx) | hx <;> (split at hx <;> simp only [List.mem_singleton, List.not_mem_nil] at hx) <;> subst hx <;> simp only [List.mem_append, not_or]
        · exact ⟨by decide, h3 _ (by simp)⟩
        · exact ⟨by decide, h3 _ (by simp)⟩
        · exact ⟨by decide, h3 _ (by simp)⟩
    · simp at hl

theorem nl_mEdges {d : Bool} : ∀ {l : List Edge} {i : Nat}, (∀ e ∈ l, '\n' ∉ e.src ∧ '\n' ∉ e.dst ∧ '\n' ∉ e.label ∧ '\n' ∉ e.style.color) → ∀ x ∈ mEdgeLines d i l, '\n' ∉ x
  | [], _, _, x, hx => by simp [mEdgeLines] at hx
  | e :: l, i, h, x, hx => by
    rw [mEdgeLines, List.mem_append] at hx
    rcases hx with hx | hx
    · obtain ⟨h1, h2, h3, h4⟩ := h e (by simp)
      unfold mEdgeLine at hx
      rcases List.mem_cons.1 hx with rfl | hx
      · show '\n' ∉ mEdgeText d e
        rw [mEdgeText_eq]
        by_cases hl : e.label = [] <;> cases d <;> simp [hl, h1, h2, h3]
      · split at hx
        · simp only [List.mem_singleton] at hx
          subst hx
          unfold mEdgeStyle
          split
          · simp
          · simp only [List.mem_append, not_or]
            refine ⟨⟨⟨by decide, fun hm => ?_⟩, by decide⟩, nl_joinC fun y hy => ?_⟩
            · have := Nat.isDigit_of_mem_toDigits (by omega) (by omega) hm
              exact absurd this (by decide)
            · unfold mEdgeAttrs at hy
              simp only [List.mem_append] at hy
              rcases hy with hy | hy
              · split at hy
                · simp only [List.mem_singleton] at hy
                  subst hy
                  simp only [List.mem_append, not_or]
                  exact ⟨by decide, h4⟩
                · simp at hy
              · have : ∀ t : EType, ∀ y ∈ mType t, '\n' ∉ y := fun t => by cases t <;> decide
                exact this _ y hy
        · simp at hx
    · exact nl_mEdges (fun e he => h e (by simp [he])) x hx

/-! ## theorems -/

/-- C71: two drawings with the same Mermaid text show the same. `_partial`: the texts are like in `MClean` (`C71_quote_false`, `C71_comma_false`). -/
theorem C71_mermaid_partial {r r' : Rep} (hr : MClean r) (hr' : MClean r') (h : mWrite r = mWrite r') : MSame r r' := by
  have lines : ∀ {r : Rep}, MClean r → ∀ l ∈ "graph TD".toList :: (r.nodes.flatMap mNodeLines ++ [] :: mEdgeLines r.directed 0 r.edges), '\n' ∉ l := by
    intro r hr l hl
    rcases List.mem_cons.1 hl with rfl | hl
    · decide
    · rcases List.mem_append.1 hl with hl | hl
      · obtain ⟨n, hn, hl⟩ := List.mem_flatMap.1 hl
        exact nl_mNode (hr.id n hn).2.2.2.2 (hr.label n hn).2 (fun t ht => (hr.style n hn t ht).2) l hl
      · rcases List.mem_cons.1 hl with rfl | hl
        · simp
        · exact nl_mEdges (fun e he => ⟨((hr.ends e he).2 _ (by simp)).2, ((hr.ends e he).2 _ (by simp)).2, (hr.elabel e he).2, (hr.color e he).2⟩) l hl
  have h := (List.cons.inj (unlines_inj (lines hr) (lines hr') h)).2
  have nok : ∀ {r : Rep}, MClean r → ∀ n ∈ r.nodes, NOk n := fun hr n hn => by
    obtain ⟨a, b, c, d, -⟩ := hr.id n hn
    exact ⟨⟨a, b, c, d⟩, (hr.label n hn).1, fun t ht => (hr.style n hn t ht).1⟩
  have eok : ∀ {r : Rep}, MClean r → ∀ e ∈ r.edges, EOk e := fun hr e he =>
    ⟨⟨(hr.ends e he).1, ((hr.ends e he).2 _ (by simp)).1, ((hr.ends e he).2 _ (by simp)).1⟩, (hr.elabel e he).1, (hr.color e he).1⟩
  obtain ⟨h1, h⟩ := nodes_inj (nok hr) (nok hr') h
  obtain ⟨h2, h3⟩ := edges_inj (eok hr) (eok hr') h
  exact ⟨h1, h2, h3⟩

theorem infix_unlines {l : List Text} {x t : Text} (h : x ∈ l) (ht : t <+: x) : t <:+: unlines l := by
  obtain ⟨a, b, rfl⟩ := List.append_of_mem h
  obtain ⟨u, rfl⟩ := ht
  have ap : ∀ a b : List Text, unlines (a ++ b) = unlines a ++ unlines b := fun a b => by simp [unlines]
  have c : ∀ (x : Text) (b : List Text), unlines (x :: b) = x ++ '\n' :: unlines b := fun x b => by simp [unlines]
  rw [ap, c]
  exact ⟨unlines a, u ++ '\n' :: unlines b, by simp⟩

theorem mem_mEdgeLines {d : Bool} {x : Text} : ∀ {l : List Edge} {j i : Nat} {e : Edge}, l[i]? = some e → x ∈ mEdgeLine d (j + i) e → x ∈ mEdgeLines d j l
  | [], _, _, _, h, _ => by simp at h
  | a :: l, j, 0, e, h, hx => by
    simp only [List.getElem?_cons_zero, Option.some.injEq] at h
    subst h
    rw [mEdgeLines]
    exact List.mem_append_left _ hx
  | a :: l, j, i + 1, e, h, hx => by
    rw [mEdgeLines]
    refine List.mem_append_right _ (mem_mEdgeLines (i := i) (by simpa using h) ?_)
    rwa [show j + 1 + i = j + (i + 1) by omega]

theorem joinC_prefix (a : Text) (l : List Text) : a <+: joinC (a :: l) := by
  cases l with
  | nil => exact List.prefix_refl _
  | cons b l => exact ⟨",".toList ++ joinC (b :: l), by rw [joinC, List.append_assoc]⟩

/-- C71: the style of the edge number `i` is written with the number `i`, and its color is its stroke -/
theorem C71_links {r : Rep} {i : Nat} {e : Edge} (h : r.edges[i]? = some e) :
    (e.style.color ≠ [] → "    linkStyle ".toList ++ Nat.toDigits 10 i ++ " stroke:".toList ++ e.style.color <:+: mWrite r) ∧
    (e.style.type ≠ .default → "    linkStyle ".toList ++ Nat.toDigits 10 i ++ " ".toList <:+: mWrite r) := by
  have key : ∀ t, mEdgeStyle i e.style ≠ [] → t <+: mEdgeStyle i e.style → t <:+: mWrite r := fun t h0 ht => by
    refine infix_unlines (List.mem_cons_of_mem _ (List.mem_append_right _ (List.mem_cons_of_mem _ (mem_mEdgeLines (x := mEdgeStyle i e.style) h ?_)))) ht
    rw [Nat.zero_add]
    unfold mEdgeLine
    rw [if_pos h0]
    simp
  have eq : ∀ {s : EdgeStyle}, (s.type ≠ .default ∨ s.color ≠ []) → mEdgeStyle i s = "    linkStyle ".toList ++ Nat.toDigits 10 i ++ " ".toList ++ joinC (mEdgeAttrs s) := fun hs => by
    unfold mEdgeStyle EdgeStyle.hasStyle
    simp only [hs, decide_true, Bool.not_true, Bool.false_eq_true, if_false]
  refine ⟨fun hc => ?_, fun hc => ?_⟩
  · refine key _ (by rw [eq (.inr hc)]; simp) ?_
    rw [eq (.inr hc)]
    unfold mEdgeAttrs
    rw [if_pos hc]
    obtain ⟨u, hu⟩ := joinC_prefix ("stroke:".toList ++ e.style.color) (mType e.style.type)
    refine ⟨u, ?_⟩
    rw [List.singleton_append, ← hu]
    have : " stroke:".toList = " ".toList ++ "stroke:".toList := rfl
    rw [this]
    simp only [List.append_assoc]
  · refine key _ (by rw [eq (.inl hc)]; simp) ?_
    rw [eq (.inl hc)]
    exact List.prefix_append _ _

/-- C71: the colors of a node are written with its id: the border as stroke, or else the text as color, or else the background as fill -/
theorem C71_colors {r : Rep} {n : Node} (h : n ∈ r.nodes) :
    (n.style.stroke ≠ [] → "    style ".toList ++ n.id ++ " stroke:".toList ++ n.style.stroke <:+: mWrite r) ∧
    (n.style.stroke = [] → n.style.text ≠ [] → "    style ".toList ++ n.id ++ " color:".toList ++ n.style.text <:+: mWrite r) ∧
    (n.style.stroke = [] → n.style.text = [] → n.style.back ≠ [] → "    style ".toList ++ n.id ++ " fill:".toList ++ n.style.back <:+: mWrite r) := by
  have key : ∀ a l, mNodeAttrs n.style = a :: l → "    style ".toList ++ n.id ++ " ".toList ++ a <:+: mWrite r := fun a l hl => by
    have hs : mNodeStyle n.id n.style = "    style ".toList ++ n.id ++ " ".toList ++ joinC (mNodeAttrs n.style) := by
      rcases mNodeStyle_cases n.id n.style with h | h
      · rw [h.2] at hl; cases hl
      · exact h.1
    refine infix_unlines (x := mNodeStyle n.id n.style) (List.mem_cons_of_mem _ (List.mem_append_left _ (List.mem_flatMap.2 ⟨n, h, ?_⟩))) ?_
    · unfold mNodeLines
      rw [if_pos (by rw [hs]; simp)]
      simp
    · obtain ⟨u, hu⟩ := joinC_prefix a l
      exact ⟨u, by rw [hs, hl, ← hu]; simp only [List.append_assoc]⟩
  have c1 : " stroke:".toList = " ".toList ++ "stroke:".toList := rfl
  have c2 : " color:".toList = " ".toList ++ "color:".toList := rfl
  have c3 : " fill:".toList = " ".toList ++ "fill:".toList := rfl
  rw [c1, c2, c3]
  refine ⟨fun h1 => ?_, fun h1 h2 => ?_, fun h1 h2 h3 => ?_⟩
  · have := key ("stroke:".toList ++ n.style.stroke) _ (by unfold mNodeAttrs; rw [if_pos h1]; rfl)
    simpa only [List.append_assoc] using this
  · have := key ("color:".toList ++ n.style.text) _ (by unfold mNodeAttrs; rw [if_neg (by simpa using h1), if_pos h2]; rfl)
    simpa only [List.append_assoc] using this
  · have := key ("fill:".toList ++ n.style.back) _ (by unfold mNodeAttrs; rw [if_neg (by simpa using h1), if_neg (by simpa using h2), if_pos h3]; rfl)
    simpa only [List.append_assoc] using this

/-- C71, refuted part: quotes in labels are written as they are, so with the end of a line a label can be taken for a second node -/
theorem C71_quote_false : ∃ r r' : Rep, mWrite r = mWrite r' ∧ r.nodes.length ≠ r'.nodes.length := by
  refine ⟨⟨false, true, [], [⟨"id0".toList, "a\"])\n  id1([\"b".toList, plain, true⟩], []⟩,
    ⟨false, true, [], [⟨"id0".toList, "a".toList, plain, true⟩, ⟨"id1".toList, "b".toList, plain, true⟩], []⟩, by decide, by decide⟩

/-- C71, refuted part: a color with a comma can be taken for two -/
theorem C71_comma_false : ∃ r r' : Rep, mWrite r = mWrite r' ∧ ¬ MSame r r' := by
  refine ⟨⟨false, true, [], [⟨"id0".toList, "a".toList, ⟨.default, "red,fill:blue".toList, [], []⟩, true⟩], []⟩,
    ⟨false, true, [], [⟨"id0".toList, "a".toList, ⟨.default, "red".toList, [], "blue".toList⟩, true⟩], []⟩, by decide, fun h => ?_⟩
  exact absurd h.nodes (by decide)

/-! ### Examples -/

example : String.ofList (mWrite (exR false)) = "graph TD\n  id0([\"¬\"])\n  id1((\"a\"))\n    style id1 stroke:#000000,fill:#ea2027\n\n  id0 -->|\"l\"| id1\n    linkStyle 0 stroke:#004f93,stroke-width:2,stroke-dasharray:3\n" := by
  decide +kernel

/-- the hypotheses of `C71_links` and `C71_colors` -/
example : ((exR false).edges[0]?.map fun e => decide (e.style.color ≠ [] ∧ e.style.type ≠ .default)) = some true ∧ ∃ n ∈ (exR false).nodes, n.style.stroke ≠ [] := by
  decide +kernel

/-- the hypotheses of `C71_mermaid_partial` -/
example : MClean (exR true) := ⟨by decide +kernel, by decide +kernel, by decide +kernel, by decide +kernel, by decide +kernel, by decide +kernel⟩

end Verif.Dot
