/-!
# Model of the variable heap `sat/heap.go`

The slice `heap` is a function on positions together with its length, the slice `indices` a function with `-1` for absent elements.  Only positions below the
length are read by the functions on the states considered in `HeapProps`.  The activities of the solver (floats) are integers; only their order is used.
-/
namespace Verif.Data

/-- heap.go:9-13 `lngheap` -/
structure Heap where
  n : Nat
  h : Nat → Nat
  idx : Nat → Int

def fset {β : Type} (g : Nat → β) (i : Nat) (x : β) : Nat → β := fun j => if j = i then x else g j

/-- heap.go:15-21 `newLngHeap`; heap.go:167-178 `growTo` gives `-1` to all new elements -/
def newHeap : Heap := ⟨0, fun _ => 0, fun _ => -1⟩

/-- core.go:232-234 `lt` -/
def hlt (act : Nat → Int) (x y : Nat) : Bool := decide (act x > act y)

/-- heap.go:23-33 -/
def par (i : Nat) : Nat := (i - 1) / 2
def inHeap (s : Heap) (v : Nat) : Bool := decide (s.idx v ≥ 0)

/-- the loop of `percolateUp`, heap.go:118-123; returns the state and the final `j` -/
def upLoop (act : Nat → Int) (x : Nat) (s : Heap) (j : Nat) : Heap × Nat :=
  if _h : j ≠ 0 ∧ hlt act x (s.h (par j)) = true then
    upLoop act x { s with h := fset s.h j (s.h (par j)), idx := fset s.idx (s.h (par j)) j } (par j)
  else (s, j)
termination_by j
decreasing_by unfold par; omega

/-- heap.go:113-127 `percolateUp` -/
def percolateUp (act : Nat → Int) (s : Heap) (pos : Nat) : Heap :=
  let x := s.h pos
  let r := upLoop act x s pos
  { r.1 with h := fset r.1.h r.2 x, idx := fset r.1.idx x r.2 }

/-- heap.go:133-138, the chosen child -/
def child (act : Nat → Int) (s : Heap) (p : Nat) : Nat :=
  if (p + 1) * 2 < s.n ∧ hlt act (s.h ((p + 1) * 2)) (s.h (p * 2 + 1)) = true then (p + 1) * 2 else p * 2 + 1

/-- the loop of `percolateDown`, heap.go:132-145 -/
def downLoop (act : Nat → Int) (y : Nat) (s : Heap) (p : Nat) : Heap × Nat :=
  if _h : p * 2 + 1 < s.n ∧ hlt act (s.h (child act s p)) y = true then
    downLoop act y { s with h := fset s.h p (s.h (child act s p)), idx := fset s.idx (s.h (child act s p)) p } (child act s p)
  else (s, p)
termination_by s.n - p
decreasing_by
  obtain ⟨h1, _⟩ := _h
  show s.n - child act s p < s.n - p
  unfold child; split <;> omega

/-- heap.go:129-148 `percolateDown` -/
def percolateDown (act : Nat → Int) (s : Heap) (pos : Nat) : Heap :=
  let y := s.h pos
  let r := downLoop act y s pos
  { r.1 with h := fset r.1.h r.2 y, idx := fset r.1.idx y r.2 }

/-- heap.go:51-53 `decrease` -/
def decrease (act : Nat → Int) (s : Heap) (v : Nat) : Heap := percolateUp act s (s.idx v).toNat

/-- heap.go:55-60 `insert` -/
def insert (act : Nat → Int) (s : Heap) (v : Nat) : Heap :=
  percolateUp act { n := s.n + 1, h := fset s.h s.n v, idx := fset s.idx v s.n } s.n

/-- heap.go:62-72 `removeMin`; `none` is the index panic on an empty heap -/
def removeMin (act : Nat → Int) (s : Heap) : Option (Nat × Heap) :=
  if s.n = 0 then none
  else
    let x := s.h 0
    let h1 := fset s.h 0 (s.h (s.n - 1))
    let s1 : Heap := { n := s.n - 1, h := h1, idx := fset (fset s.idx (h1 0) 0) x (-1) }
    some (x, if s1.n > 1 then percolateDown act s1 0 else s1)

/-- heap.go:74-85 `remove` -/
def remove (act : Nat → Int) (s : Heap) (v : Nat) : Heap :=
  let k := (s.idx v).toNat
  let idx1 := fset s.idx v (-1)
  if k < s.n - 1 then
    let h1 := fset s.h k (s.h (s.n - 1))
    percolateDown act { n := s.n - 1, h := h1, idx := fset idx1 (h1 k) k } k
  else { n := s.n - 1, h := s.h, idx := idx1 }

/-- heap.go:106-111 `clear` -/
def clear (s : Heap) : Heap :=
  { n := 0, h := s.h, idx := (List.range s.n).foldl (fun idx i => fset idx (s.h i) (-1)) s.idx }

/-- heap.go:92-95, the loop that fills the heap -/
def fill (s : Heap) (ns : List Nat) : Heap := ns.foldl (fun s v => { n := s.n + 1, h := fset s.h s.n v, idx := fset s.idx v s.n }) s

/-- heap.go:96-98, the loop downwards from `i - 1` to 0 -/
def heapify (act : Nat → Int) (s : Heap) : Nat → Heap
  | 0 => s
  | i + 1 => heapify act (percolateDown act s i) i

/-- heap.go:87-104 `build` -/
def build (act : Nat → Int) (s : Heap) (ns : List Nat) : Heap :=
  let s1 := fill (clear s) ns
  heapify act s1 (s1.n / 2)

end Verif.Data
