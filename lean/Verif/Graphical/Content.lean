import Verif.Graphical.Mermaid
/-!
# What the texts of drawings contain (C70, C71)

`C70_dot_partial` and `C71_mermaid_partial` say that nothing is lost in a text. Here: each node and each edge has its line, with the ends in the right order and the
attributes under their names. These theorems hold for all drawings.
-/
namespace Verif.Dot

/-! ## specification -/

/-- the text has the line -/
def HasLine (t l : Text) : Prop := ∃ a b, t = a ++ l ++ '\n' :: b ∧ (a = [] ∨ ∃ c, a = c ++ ['\n'])

/-- what the line of a node in DOT says -/
structure DotNode (n : Node) (l : Text) : Prop where
  label : "  ".toList ++ n.id ++ " [label=\"".toList ++ n.label ++ "\"".toList <+: l
  stroke : n.style.stroke ≠ [] → ", color=\"".toList ++ n.style.stroke ++ "\"".toList <:+: l
  text : n.style.text ≠ [] → ", fontcolor=\"".toList ++ n.style.text ++ "\"".toList <:+: l
  back : n.style.back ≠ [] → ", style=filled, fillcolor=\"".toList ++ n.style.back ++ "\"".toList <:+: l
  box : n.style.shape = .rectangle → ", shape=box".toList <:+: l
  circle : n.style.shape = .circle → ", shape=circle".toList <:+: l
  ellipse : n.style.shape = .ellipse → ", shape=ellipse".toList <:+: l

/-- what the line of an edge in DOT says -/
structure DotEdge (directed : Bool) (e : Edge) (l : Text) : Prop where
  arrow : directed = true → "  ".toList ++ e.src ++ " -> ".toList ++ e.dst <+: l
  line : directed = false → "  ".toList ++ e.src ++ " -- ".toList ++ e.dst <+: l
  color : e.style.color ≠ [] → " [color=\"".toList ++ e.style.color ++ "\", fontcolor=\"".toList ++ e.style.color ++ "\"".toList <:+: l
  label : e.label ≠ [] → "label=\"".toList ++ e.label ++ "\"".toList <:+: l
  solid : e.style.type = .solid → "style=solid".toList <:+: l
  dotted : e.style.type = .dotted → "style=dotted".toList <:+: l
  bold : e.style.type = .bold → "style=bold".toList <:+: l

/-- the line of a node in Mermaid -/
def merNode (n : Node) : Text := match n.style.shape with
  | .rectangle => "  ".toList ++ n.id ++ "[\"".toList ++ n.label ++ "\"]".toList
  | .circle => "  ".toList ++ n.id ++ "((\"".toList ++ n.label ++ "\"))".toList
  | .ellipse => "  ".toList ++ n.id ++ "([\"".toList ++ n.label ++ "\"])".toList
  | .default => "  ".toList ++ n.id ++ "([\"".toList ++ n.label ++ "\"])".toList

/-- the line of an edge in Mermaid -/
def merEdge (directed : Bool) (e : Edge) : Text := match directed, e.label with
  | true, [] => "  ".toList ++ e.src ++ " --> ".toList ++ e.dst
  | false, [] => "  ".toList ++ e.src ++ " --- ".toList ++ e.dst
  | true, c :: l => "  ".toList ++ e.src ++ " -->|\"".toList ++ (c :: l) ++ "\"| ".toList ++ e.dst
  | false, c :: l => "  ".toList ++ e.src ++ " ---|\"".toList ++ (c :: l) ++ "\"| ".toList ++ e.dst

/-! ## lemmas -/

theorem hasLine {ls : List Text} {l : Text} (h : l ∈ ls) : HasLine (unlines ls) l := by
  obtain ⟨a, b, rfl⟩ := List.append_of_mem h
  refine ⟨unlines a, unlines b, by simp [unlines], ?_⟩
  rcases List.eq_nil_or_concat a with rfl | ⟨a, x, rfl⟩
  · exact .inl rfl
  · exact .inr ⟨unlines a ++ x, by simp [unlines]⟩

theorem infix_join {l : List Text} {a : Text} (h : a ∈ l) : ", ".toList ++ a <:+: ", ".toList ++ join l := by
  rw [join_eq (List.ne_nil_of_mem h)]
  obtain ⟨u, v, rfl⟩ := List.append_of_mem h
  exact ⟨u.flatMap fun a => ", ".toList ++ a, v.flatMap fun a => ", ".toList ++ a, by simp⟩

theorem infix_join' {l : List Text} {a : Text} (h : a ∈ l) : a <:+: join l := by
  induction l with
  | nil => simp at h
  | cons b l ih =>
    cases l with
    | nil =>
      simp only [List.mem_singleton] at h
      subst h
      exact List.infix_refl _
    | cons c l =>
      rw [join]
      rcases List.mem_cons.1 h with rfl | h
      · exact ⟨[], ", ".toList ++ join (c :: l), by simp⟩
      · exact (ih h).trans ⟨b ++ ", ".toList, [], by simp⟩

theorem node_attr {n : Node} {a : Text} (h : a ∈ nodeAttrs n.style) : ", ".toList ++ a <:+: nodeString n := by
  have h0 : 0 < (nodeAttrs n.style).length := List.length_pos_of_mem h
  unfold nodeString
  simp only [h0, if_true]
  exact (infix_join h).trans ⟨"  ".toList ++ n.id ++ " [label=\"".toList ++ n.label ++ "\"".toList, "]".toList, by simp⟩

theorem edge_attr {d : Bool} {e : Edge} {a : Text} (h : a ∈ edgeAttrs e) : a <:+: edgeString d e := by
  have h0 : 0 < (edgeAttrs e).length := List.length_pos_of_mem h
  unfold edgeString
  simp only [h0, if_true]
  exact (infix_join' h).trans ⟨"  ".toList ++ e.src ++ " ".toList ++ (if d then "->".toList else "--".toList) ++ " ".toList ++ e.dst ++ " [".toList, "]".toList, by simp⟩

theorem mem_ite {c : Prop} [Decidable c] {a : Text} (h : c) : a ∈ (if c then [a] else []) := by
  rw [if_pos h]
  exact List.mem_singleton_self a

theorem dotNode (n : Node) : DotNode n (nodeString n) := by
  have sh : ∀ {s : Shape} {t : Text}, n.style.shape = s → s ≠ .default → ", ".toList ++ ("shape=".toList ++ shapeString s) = t → t <:+: nodeString n := by
    rintro s t hs h0 rfl
    subst hs
    exact node_attr (List.mem_append_left _ (List.mem_append_left _ (List.mem_append_left _ (mem_ite h0))))
  refine ⟨⟨_, by unfold nodeString; simp only [List.append_assoc]; rfl⟩, fun h => ?_, fun h => ?_, fun h => ?_, fun h => sh h (by decide) (by decide), fun h => sh h (by decide) (by decide),
    fun h => sh h (by decide) (by decide)⟩
  · have : ", color=\"".toList = ", ".toList ++ "color=\"".toList := rfl
    rw [this, List.append_assoc, List.append_assoc]
    refine node_attr (a := _) ?_
    rw [← List.append_assoc]
    exact (List.mem_append_left _ (List.mem_append_left _ (List.mem_append_right _ (mem_ite h))))
  · have : ", fontcolor=\"".toList = ", ".toList ++ "fontcolor=\"".toList := rfl
    rw [this, List.append_assoc, List.append_assoc]
    refine node_attr (a := _) ?_
    rw [← List.append_assoc]
    exact (List.mem_append_left _ (List.mem_append_right _ (mem_ite h)))
  · have : ", style=filled, fillcolor=\"".toList = ", ".toList ++ "style=filled, fillcolor=\"".toList := rfl
    rw [this, List.append_assoc, List.append_assoc]
    refine node_attr (a := _) ?_
    rw [← List.append_assoc]
    exact (List.mem_append_right _ (mem_ite h))

theorem dotEdge (d : Bool) (e : Edge) : DotEdge d e (edgeString d e) := by
  have ty : ∀ {s : EType} {t : Text}, e.style.type = s → s ≠ .default → "style=".toList ++ typeString s = t → t <:+: edgeString d e := by
    rintro s t hs h0 rfl
    subst hs
    exact edge_attr (List.mem_append_left _ (List.mem_append_right _ (mem_ite h0)))
  have c1 : " -> ".toList = " ".toList ++ "->".toList ++ " ".toList := rfl
  have c2 : " -- ".toList = " ".toList ++ "--".toList ++ " ".toList := rfl
  refine ⟨?_, ?_, fun h => ?_, fun h => edge_attr (List.mem_append_right _ (mem_ite h)), fun h => ty h (by decide) (by decide), fun h => ty h (by decide) (by decide),
    fun h => ty h (by decide) (by decide)⟩
  · rintro rfl
    rw [c1]
    exact ⟨_, by unfold edgeString; simp only [List.append_assoc, if_true]; rfl⟩
  · rintro rfl
    rw [c2]
    exact ⟨_, by unfold edgeString; simp only [List.append_assoc, Bool.false_eq_true, if_false]; rfl⟩
  · have hd : ∃ l, edgeAttrs e = ("color=\"".toList ++ e.style.color ++ "\", fontcolor=\"".toList ++ e.style.color ++ "\"".toList) :: l :=
      ⟨_, by unfold edgeAttrs; rw [if_pos h]; rfl⟩
    obtain ⟨l, hl⟩ := hd
    have pj : ∀ (a : Text) (l : List Text), ∃ u, join (a :: l) = a ++ u := fun a l => by
      cases l with
      | nil => exact ⟨[], by simp [join]⟩
      | cons b l => exact ⟨_, by rw [join, List.append_assoc]⟩
    obtain ⟨u, hu⟩ := pj ("color=\"".toList ++ e.style.color ++ "\", fontcolor=\"".toList ++ e.style.color ++ "\"".toList) l
    have c3 : " [color=\"".toList = " [".toList ++ "color=\"".toList := rfl
    have h0 : 0 < (edgeAttrs e).length := by rw [hl]; exact Nat.zero_lt_succ _
    unfold edgeString
    simp only [h0, if_true]
    rw [hl, hu, c3]
    exact ⟨"  ".toList ++ e.src ++ " ".toList ++ (if d then "->".toList else "--".toList) ++ " ".toList ++ e.dst, u ++ "]".toList, by simp⟩

/-! ## theorems -/

/-- C70: each node and each edge has a line in the DOT text that says what it is -/
theorem C70_content (r : Rep) : (∀ n ∈ r.nodes, ∃ l, HasLine (write r) l ∧ DotNode n l) ∧ (∀ e ∈ r.edges, ∃ l, HasLine (write r) l ∧ DotEdge r.directed e l) ∧
    (r.background ≠ [] → HasLine (write r) ("  bgcolor=\"".toList ++ r.background ++ "\"".toList)) := by
  refine ⟨fun n hn => ⟨nodeString n, hasLine ?_, dotNode n⟩, fun e he => ⟨edgeString r.directed e, hasLine ?_, dotEdge _ e⟩, fun h => hasLine ?_⟩
  · refine List.mem_append_left _ (List.mem_append_left _ (List.mem_append_right _ ?_))
    unfold nodeLines
    refine List.mem_append_left _ ?_
    cases r.align with
    | false => exact List.mem_map_of_mem hn
    | true =>
      cases ht : n.terminal with
      | true => exact List.mem_append_left _ (List.mem_append_left _ (List.mem_append_right _ (List.mem_map_of_mem (List.mem_filter.2 ⟨hn, ht⟩))))
      | false => exact List.mem_append_right _ (List.mem_map_of_mem (List.mem_filter.2 ⟨hn, by rw [ht]; rfl⟩))
  · exact List.mem_append_left _ (List.mem_append_right _ (List.mem_map_of_mem he))
  · refine List.mem_append_left _ (List.mem_append_left _ (List.mem_append_left _ ?_))
    exact List.mem_append_left _ (List.mem_append_right _ (mem_ite h))

/-- C71: each node and each edge has its line in the Mermaid text -/
theorem C71_content (r : Rep) : (∀ n ∈ r.nodes, HasLine (mWrite r) (merNode n)) ∧ ∀ e ∈ r.edges, HasLine (mWrite r) (merEdge r.directed e) := by
  have hn : ∀ n : Node, "  ".toList ++ mNode n = merNode n := fun n => by
    have c1 : "[\"".toList = "[".toList ++ "\"".toList := rfl
    have c2 : "((\"".toList = "((".toList ++ "\"".toList := rfl
    have c3 : "([\"".toList = "([".toList ++ "\"".toList := rfl
    have d1 : "\"]".toList = "\"".toList ++ "]".toList := rfl
    have d2 : "\"))".toList = "\"".toList ++ "))".toList := rfl
    have d3 : "\"])".toList = "\"".toList ++ "])".toList := rfl
    unfold mNode merNode
    rw [c1, c2, c3, d1, d2, d3]
    cases n.style.shape <;> simp [brackets]
  have he : ∀ (d : Bool) (e : Edge), mEdgeText d e = merEdge d e := fun d e => by
    have c1 : "  ".toList = [' ', ' '] := rfl
    have c2 : " --> ".toList = [' ', '-', '-', '>', ' '] := rfl
    have c3 : " --- ".toList = [' ', '-', '-', '-', ' '] := rfl
    have c4 : " -->|\"".toList = [' ', '-', '-', '>', '|', '"'] := rfl
    have c5 : " ---|\"".toList = [' ', '-', '-', '-', '|', '"'] := rfl
    have c6 : "\"| ".toList = ['"', '|', ' '] := rfl
    rw [mEdgeText_eq]
    unfold merEdge
    rw [c1, c2, c3, c4, c5, c6]
    cases d <;> cases e.label <;> simp
  refine ⟨fun n h => hasLine (List.mem_cons_of_mem _ (List.mem_append_left _ (List.mem_flatMap.2 ⟨n, h, ?_⟩))), fun e h => ?_⟩
  · rw [← hn]
    exact List.mem_cons_self
  · obtain ⟨i, hi, rfl⟩ := List.getElem_of_mem h
    refine hasLine (List.mem_cons_of_mem _ (List.mem_append_right _ (List.mem_cons_of_mem _ (mem_mEdgeLines (List.getElem?_eq_getElem hi) ?_))))
    rw [← he]
    exact List.mem_cons_self

/-! ### Examples -/

example : ∃ n ∈ (exR true).nodes, n.style.stroke ≠ [] ∧ n.style.back ≠ [] ∧ n.style.shape = .circle := by decide +kernel

example : ∃ e ∈ (exR true).edges, (exR true).directed = true ∧ e.style.color ≠ [] ∧ e.label ≠ [] ∧ e.style.type = .dotted ∧ (exR true).background ≠ [] := by decide +kernel

end Verif.Dot
