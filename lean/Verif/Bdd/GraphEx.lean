import Verif.Bdd.Graph
/-
C69: examples.
-/
namespace Verif.Bdd
open Verif Verif.Tree

/-! ### Examples -/

/-- the pointer and the nodes before and after the exchange of the variables 0 and 2 -/
def exGraph (sw : Bool) : Option (Nat × List (GNode Nat)) := do
  let st : St Nat ← runNew (exPar 11) exH id 4 13 (List.range 3) [.compile exF ()]
  let o ← if sw then stepR (exPar 11) (exQ 4) ⟨st.w.k, id, id⟩ (.swap 0 2) else some ⟨st.w.k, id, id⟩
  match (st.out[0]? : Option Out) with
  | some (.bdd a) => nodeRep o st.w.names a
  | _ => none

example : exGraph false = some (4, [.const true, .const false, .inner (some 2) 0 1, .inner (some 1) 2 0, .inner (some 0) 2 3]) := by decide +kernel
example : exGraph true = some (4, [.const true, .const false, .inner (some 0) 1 0, .inner (some 1) 1 2, .inner (some 2) 0 3]) := by decide +kernel

/-- the hypotheses of `C69_nodes` -/
example : ∃ st : St Nat, runNew (exPar 11) exH id 4 13 (List.range 3) [.compile exF ()] = some st ∧ (∃ a, st.out[0]? = some (.bdd a)) ∧
    OpsOk (σ := Unit) id [.compile exF ()] ∧ Reads (exPar 11) (exQ 4) 4 [Op.compile exF ()] st 0 ⟨st.w.k, id, id⟩ := by
  have hs : (runNew (exPar 11) exH id 4 13 (List.range 3) [.compile exF ()]).isSome = true := by decide +kernel
  obtain ⟨st, hst⟩ := Option.isSome_iff_exists.1 hs
  have ha : ((runNew (exPar 11) exH id 4 13 (List.range 3) [.compile exF ()]).bind fun st =>
      match (st.out[0]? : Option Out) with
      | some (.bdd a) => some a
      | _ => none).isSome = true := by decide +kernel
  rw [hst] at ha
  simp only [Option.bind_some] at ha
  refine ⟨st, hst, ?_, exF_ok, .now ⟨_, rfl, .inl rfl⟩⟩
  split at ha
  · next a h => exact ⟨a, h⟩
  · cases ha

/-- the styles of the default generator as numbers -/
def exBGen : BGen Nat Nat where
  noNode := 0
  noEdge := 0
  defNode := some 1
  defEdge := some 1
  defNeg := some 2
  compNode := some fun i => if i = 0 then 2 else if i = 1 then 1 else 0
  compLabel := none
  compEdge := none
  compNeg := none

def exFS : Fm String := .or [.and [.lit ⟨"a", true⟩, .lit ⟨"b", true⟩], .lit ⟨"c", false⟩]

/-- labels, kinds and edges of the graph of `a & b | ~c` -/
def exDraw : Option (List (String × Nat × Bool) × List (Bool × Nat)) := do
  let st : St String ← runNew (exPar 11) exH id 4 13 ["a", "b", "c"] [.compile exFS ()]
  match (st.out[0]? : Option Out) with
  | some (.bdd a) => (graph exBGen ⟨st.w.k, id, id⟩ st.w.names a).map fun r =>
      (r.nodes.map fun n => (n.label, n.style, n.terminal), r.edges.map fun e => (decide (e.dst < 2), e.style))
  | _ => none

example : exDraw.map (·.1.take 2) = some [("false", 2, true), ("true", 1, true)] := by decide +kernel
example : exDraw.map (fun x => (x.1.drop 2).map (·.2)) = some [(0, false), (0, false), (0, false)] := by decide +kernel
example : exDraw.map (fun x => [("a", 0, false), ("b", 0, false), ("c", 0, false)].all (x.1.contains ·)) = some true := by decide +kernel
example : exDraw.map (·.2.map (·.2)) = some [2, 1, 2, 1, 2, 1] := by decide +kernel

end Verif.Bdd
