/-!
# Model of the sets of `formula/set.go`

The sets live in a store and are addressed by references, so that aliasing (`AsImmutable` returns the set itself, and a set may be its own argument)
is part of the model.  A Go map is a duplicate free list of its keys; the iteration order, which Go leaves open, is a parameter `ord`.
-/
namespace Verif.Data

/-- set.go:18-21 `fset`: the keys of the map, and the cached sorted content (`none` is the nil slice) -/
structure FSet where
  elems : List Nat
  content : Option (List Nat)

/-- `slices.Sort` on the keys -/
def sortIds (l : List Nat) : List Nat := l.mergeSort (fun a b => decide (a ≤ b))

/-- map assignment `elements[e] = present{}` -/
def mapAdd (m : List Nat) (e : Nat) : List Nat := if e ∈ m then m else e :: m
/-- `delete(elements, e)` -/
def mapDel (m : List Nat) (e : Nat) : List Nat := m.filter fun x => x ≠ e

/-- set.go:178-186 `setContent` -/
def setContent (ord : List Nat → List Nat) (s : FSet) : FSet := { s with content := some (sortIds (ord s.elems)) }

/-- a store of sets; a reference is an index -/
abbrev Store := List FSet

/-- calls of the interface -/
inductive SetOp
  | new (es : List Nat)              -- NewXSet, NewMutableXSet
  | newCopy (rs : List Nat)          -- NewVarSetCopy, NewMutableVarSetCopy
  | add (r : Nat) (e : Nat)
  | addAll (r o : Nat)
  | addAllElements (r : Nat) (es : List Nat)
  | remove (r : Nat) (e : Nat)
  | removeAll (r o : Nat)
  | removeAllElements (r : Nat) (es : List Nat)
  | content (r : Nat)

/-- the set a reference points to -/
def get (st : Store) (r : Nat) : FSet := (st[r]?).getD ⟨[], none⟩

def elemsOf (st : Store) (r : Nat) : List Nat := (get st r).elems

/-- set.go:30-98 constructors, 122-175 methods.  Ranging over the argument's map while the receiver's map changes (`s.RemoveAll(s)`) visits every key that
is not deleted before; deleting keys other than those visited does not happen, so the loop is over the keys at the start. -/
def setStep (ord : List Nat → List Nat) (st : Store) : SetOp → Store
  | .new es => st ++ [setContent ord ⟨es.foldl mapAdd [], none⟩]
  | .newCopy rs => st ++ [setContent ord ⟨rs.foldl (fun m r => (ord (elemsOf st r)).foldl mapAdd m) [], none⟩]
  | .add r e => st.modify r fun s => ⟨mapAdd s.elems e, none⟩
  | .addAll r o => st.modify r fun s => ⟨(ord (elemsOf st o)).foldl mapAdd s.elems, none⟩
  | .addAllElements r es => st.modify r fun s => ⟨es.foldl mapAdd s.elems, none⟩
  | .remove r e => st.modify r fun s => ⟨mapDel s.elems e, none⟩
  | .removeAll r o => st.modify r fun s => ⟨(ord (elemsOf st o)).foldl mapDel s.elems, none⟩
  | .removeAllElements r es => st.modify r fun s => ⟨es.foldl mapDel s.elems, none⟩
  | .content r => st.modify r fun s => if s.content.isNone then setContent ord s else s

/-- set.go:100-108 `Empty`, `Size`; 110-114 `Contains`; 116-125 `ContainsAll` -/
def isEmpty (st : Store) (r : Nat) : Bool := (elemsOf st r).length == 0
def size (st : Store) (r : Nat) : Nat := (elemsOf st r).length
def contains (st : Store) (r : Nat) (e : Nat) : Bool := (elemsOf st r).contains e
def containsAll (ord : List Nat → List Nat) (st : Store) (r o : Nat) : Bool := (ord (elemsOf st o)).all fun e => (elemsOf st r).contains e
/-- set.go:127-132 `Content`, the returned slice -/
def contentOf (ord : List Nat → List Nat) (st : Store) (r : Nat) : List Nat :=
  match (get st r).content with
  | some c => c
  | none => sortIds (ord (elemsOf st r))

end Verif.Data
