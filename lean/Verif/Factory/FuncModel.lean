import Verif.Spec.Formula
/-!
# Model of the cached functions on formulas

`Variables`, `Literals` (formula/set.go), `NumberOfAtoms`, `NumberOfNodes`, `Depth`, `SubNodes` with their caches (formula/function.go), and the profiles of
formula/formula_profile.go.  Formulas are trees; a cache is an association list (newest entry first).
-/
namespace Verif.Func
open Verif
variable {α β : Type} [DecidableEq α]

abbrev Cache (α β : Type) := List (Fm α × β)

/-- function.go:28-37 `LookupFunctionCache`, `SetFunctionCache` around a computation -/
def hit (c : Cache α β) (f : Fm α) (k : Unit → β × Cache α β) : β × Cache α β :=
  match c.lookup f with
  | some r => (r, c)
  | none => let r := k (); (r.1, (f, r.1) :: r.2)

/-- factory.go:922-943 `Operands` -/
def operands : Fm α → List (Fm α)
  | .not f => [f]
  | .impl f g => [f, g]
  | .equiv f g => [f, g]
  | .and fs => fs
  | .or fs => fs
  | _ => []

mutual
/-- the recursion common to `variables`, `literals` (set.go:202-240, 255-291), `NumberOfAtoms`, `NumberOfNodes` and `Depth`: the operands are visited from left to
right, then `node` combines their results -/
def memo (node : Fm α → List β → β) (c : Cache α β) : Fm α → β × Cache α β
  | .not f => hit c (.not f) fun _ => let r := memo node c f; (node (.not f) [r.1], r.2)
  | .impl f g => hit c (.impl f g) fun _ => let r := memo node c f; let q := memo node r.2 g; (node (.impl f g) [r.1, q.1], q.2)
  | .equiv f g => hit c (.equiv f g) fun _ => let r := memo node c f; let q := memo node r.2 g; (node (.equiv f g) [r.1, q.1], q.2)
  | .and fs => hit c (.and fs) fun _ => let r := memoL node c fs; (node (.and fs) r.1, r.2)
  | .or fs => hit c (.or fs) fun _ => let r := memoL node c fs; (node (.or fs) r.1, r.2)
  | .fls => hit c .fls fun _ => (node .fls [], c)
  | .tru => hit c .tru fun _ => (node .tru [], c)
  | .lit l => hit c (.lit l) fun _ => (node (.lit l) [], c)
  | .cc s k xs => hit c (.cc s k xs) fun _ => (node (.cc s k xs) [], c)
  | .pbc s k ts => hit c (.pbc s k ts) fun _ => (node (.pbc s k ts) [], c)
def memoL (node : Fm α → List β → β) (c : Cache α β) : List (Fm α) → List β × Cache α β
  | [] => ([], c)
  | f :: fs => let r := memo node c f; let q := memoL node r.2 fs; (r.1 :: q.1, q.2)
end

/-- number_of_atoms.go:10-17 -/
def atomsNode : Fm α → List Nat → Nat
  | .not _, rs | .impl _ _, rs | .equiv _ _, rs | .and _, rs | .or _, rs => rs.foldl (· + ·) 0
  | _, _ => 1
/-- number_of_nodes.go:9-18 -/
def nodesNode : Fm α → List Nat → Nat
  | .not _, rs | .impl _ _, rs | .equiv _ _, rs | .and _, rs | .or _, rs => rs.foldl (· + ·) 1
  | .cc _ _ xs, _ => 1 + xs.length
  | .pbc _ _ ts, _ => 1 + ts.length
  | _, _ => 1
/-- formula_depth.go:10-20 -/
def depthNode : Fm α → List Nat → Nat
  | .not _, rs | .impl _ _, rs | .equiv _ _, rs | .and _, rs | .or _, rs => rs.foldl max 0 + 1
  | _, _ => 0
/-- set.go:208-236, `AddAll` of the results of the operands; a set is a duplicate free list (see `Verif.Data`) -/
def varsNode : Fm α → List (List α) → List α
  | .not _, rs | .impl _ _, rs | .equiv _ _, rs | .and _, rs | .or _, rs => rs.foldl (fun a b => b.foldl (fun s x => s.insert x) a) []
  | .lit l, _ => [l.var]
  | .cc _ _ xs, _ => xs.foldl (fun s x => s.insert x) []
  | .pbc _ _ ts, _ => ts.foldl (fun s t => s.insert t.2.var) []
  | _, _ => []
/-- set.go:261-287 -/
def litsNode : Fm α → List (List (Lit α)) → List (Lit α)
  | .not _, rs | .impl _ _, rs | .equiv _ _, rs | .and _, rs | .or _, rs => rs.foldl (fun a b => b.foldl (fun s x => s.insert x) a) []
  | .lit l, _ => [l]
  | .cc _ _ xs, _ => xs.foldl (fun s x => s.insert ⟨x, true⟩) []
  | .pbc _ _ ts, _ => ts.foldl (fun s t => s.insert t.2) []
  | _, _ => []

/-- adding to a `linkedhashset` keeps the insertion order -/
def addLast (s : List (Fm α)) (f : Fm α) : List (Fm α) := if f ∈ s then s else s ++ [f]

mutual
/-- subnode.go:8-26 `SubNodes` -/
def subNodes (c : Cache α (List (Fm α))) : Fm α → List (Fm α) × Cache α (List (Fm α))
  | .not f => hit c (.not f) fun _ => let r := subNodes c f; (addLast (r.1.foldl addLast []) (.not f), r.2)
  | .impl f g => hit c (.impl f g) fun _ =>
    let r := subNodes c f
    let s := r.1.foldl addLast []
    if g ∈ s then (addLast s (.impl f g), r.2)
    else let q := subNodes r.2 g; (addLast (q.1.foldl addLast s) (.impl f g), q.2)
  | .equiv f g => hit c (.equiv f g) fun _ =>
    let r := subNodes c f
    let s := r.1.foldl addLast []
    if g ∈ s then (addLast s (.equiv f g), r.2)
    else let q := subNodes r.2 g; (addLast (q.1.foldl addLast s) (.equiv f g), q.2)
  | .and fs => hit c (.and fs) fun _ => let r := subNodesL c [] fs; (addLast r.1 (.and fs), r.2)
  | .or fs => hit c (.or fs) fun _ => let r := subNodesL c [] fs; (addLast r.1 (.or fs), r.2)
  | .fls => hit c .fls fun _ => ([.fls], c)
  | .tru => hit c .tru fun _ => ([.tru], c)
  | .lit l => hit c (.lit l) fun _ => ([.lit l], c)
  | .cc s k xs => hit c (.cc s k xs) fun _ => ([.cc s k xs], c)
  | .pbc s k ts => hit c (.pbc s k ts) fun _ => ([.pbc s k ts], c)
def subNodesL (c : Cache α (List (Fm α))) (s : List (Fm α)) : List (Fm α) → List (Fm α) × Cache α (List (Fm α))
  | [] => (s, c)
  | f :: fs => if f ∈ s then subNodesL c s fs else let r := subNodes c f; subNodesL r.2 (r.1.foldl addLast s) fs
end

/-- `m[k]++` on a map with the default 0 -/
def inc {γ : Type} [DecidableEq γ] (m : γ → Nat) (k : γ) : γ → Nat := fun x => if x = k then m x + 1 else m x

mutual
/-- formula_profile.go:19-32 `litProfileRec` -/
def litProfile (m : Lit α → Nat) : Fm α → Lit α → Nat
  | .lit l => inc m l
  | .cc _ _ xs => xs.foldl (fun m x => inc m ⟨x, true⟩) m
  | .pbc _ _ ts => ts.foldl (fun m t => inc m t.2) m
  | .not f => litProfile m f
  | .impl f g => litProfile (litProfile m f) g
  | .equiv f g => litProfile (litProfile m f) g
  | .and fs => litProfileL m fs
  | .or fs => litProfileL m fs
  | .fls => m
  | .tru => m
def litProfileL (m : Lit α → Nat) : List (Fm α) → Lit α → Nat
  | [] => m
  | f :: fs => litProfileL (litProfile m f) fs
end

mutual
/-- formula_profile.go:34-48 `varProfileRec` -/
def varProfile (m : α → Nat) : Fm α → α → Nat
  | .lit l => inc m l.var
  | .cc _ _ xs => xs.foldl inc m
  | .pbc _ _ ts => ts.foldl (fun m t => inc m t.2.var) m
  | .not f => varProfile m f
  | .impl f g => varProfile (varProfile m f) g
  | .equiv f g => varProfile (varProfile m f) g
  | .and fs => varProfileL m fs
  | .or fs => varProfileL m fs
  | .fls => m
  | .tru => m
def varProfileL (m : α → Nat) : List (Fm α) → α → Nat
  | [] => m
  | f :: fs => varProfileL (varProfile m f) fs
end

end Verif.Func
