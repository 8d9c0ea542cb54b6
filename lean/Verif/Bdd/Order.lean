import Verif.Spec.Formula
import Mathlib.Data.Rat.Floor
/-
Model of the orderings of variables, /repo/bdd/ordering.go with /repo/graph/hypergraph.go, hypergraph_generator.go and
/repo/formula/formula_profile.go.

`sort.Slice` of Go is an insertion sort for at most 12 elements; for more elements it is a parameter `big`. Numbers of type
`float64` are rationals with the rounding of IEEE 754 to 53 bits (`round53`; no overflow and no denormal numbers, which cannot
occur for the positions of variables). `content` stands for `Content()` of a set of variables.
-/
namespace Verif.Order
open Verif
variable {α : Type} [DecidableEq α]

/-- ordering.go:26-28, 46-48, 68-70, 87-89: `if !slices.Contains(…) append` -/
def addNew (acc : List α) (x : α) : List α := if x ∈ acc then acc else acc ++ [x]

/-! ### BFS -/

/-- ordering.go:23-28, 42-49: the variables that are noted when a formula is taken from the queue -/
def here : Fm α → List α
  | .lit l => if l.pos then [l.var] else []
  | .cc _ _ xs => xs
  | .pbc _ _ ts => ts.map (·.2.var)
  | _ => []

/-- ordering.go:29-41: the formulas that are put into the queue -/
def kids : Fm α → List (Fm α)
  | .lit l => if l.pos then [] else [.lit ⟨l.var, true⟩]
  | .not f => [f]
  | .impl f g => [f, g]
  | .equiv f g => [f, g]
  | .and fs => fs
  | .or fs => fs
  | _ => []

/-- ordering.go:18-51: the loop -/
def bfsLoop : Nat → List (Fm α) → List α → List α
  | 0, _, acc => acc
  | _ + 1, [], acc => acc
  | n + 1, f :: q, acc => bfsLoop n (q ++ kids f) ((here f).foldl addNew acc)

mutual
/-- number of rounds of the loop of `BFSOrder` (the loop of the code has no counter) -/
def work : Fm α → Nat
  | .lit l => if l.pos then 1 else 2
  | .not f => work f + 1
  | .impl f g => work f + work g + 1
  | .equiv f g => work f + work g + 1
  | .and fs => workL fs + 1
  | .or fs => workL fs + 1
  | .tru => 1
  | .fls => 1
  | .cc _ _ _ => 1
  | .pbc _ _ _ => 1
def workL : List (Fm α) → Nat
  | [] => 0
  | f :: fs => work f + workL fs
end

/-- ordering.go:16-53 `BFSOrder` -/
def bfsOrder (f : Fm α) : List α := bfsLoop (work f) [f] []

/-! ### DFS -/

mutual
/-- ordering.go:64-92 `dfs` -/
def dfs : Fm α → List α → List α
  | .lit l, acc => addNew acc l.var
  | .not f, acc => dfs f acc
  | .impl f g, acc => dfs g (dfs f acc)
  | .equiv f g, acc => dfs g (dfs f acc)
  | .and fs, acc => dfsL fs acc
  | .or fs, acc => dfsL fs acc
  | .cc _ _ xs, acc => xs.foldl addNew acc
  | .pbc _ _ ts, acc => (ts.map (·.2.var)).foldl addNew acc
  | .tru, acc => acc
  | .fls, acc => acc
def dfsL : List (Fm α) → List α → List α
  | [], acc => acc
  | f :: fs, acc => dfsL fs (dfs f acc)
end

/-- ordering.go:58-62 `DFSOrder` -/
def dfsOrder (f : Fm α) : List α := dfs f []

/-! ### numbers of occurrences -/

/-- formula_profile.go:37, 41: `cache[variable]++` -/
def bump (p : α → Nat) (x : α) : α → Nat := fun y => if y = x then p y + 1 else p y

mutual
/-- formula/formula_profile.go:34-48 `varProfileRec` -/
def profileRec : Fm α → (α → Nat) → (α → Nat)
  | .lit l, p => bump p l.var
  | .not f, p => profileRec f p
  | .impl f g, p => profileRec g (profileRec f p)
  | .equiv f g, p => profileRec g (profileRec f p)
  | .and fs, p => profileRecL fs p
  | .or fs, p => profileRecL fs p
  | .cc _ _ xs, p => xs.foldl bump p
  | .pbc _ _ ts, p => (ts.map (·.2.var)).foldl bump p
  | .tru, p => p
  | .fls, p => p
def profileRecL : List (Fm α) → (α → Nat) → (α → Nat)
  | [], p => p
  | f :: fs, p => profileRecL fs (profileRec f p)
end

/-- formula/formula_profile.go:13-17 `VariableProfile`; 0 for variables that are not in the map -/
def profile (f : Fm α) : α → Nat := profileRec f fun _ => 0

/-! ### sorting -/

/-- one round of the insertion sort of package `sort` (`insertionSort_func`): the new last element moves down past the greater ones -/
def insR {β : Type} (lt : β → β → Bool) (ys : List β) (x : β) : List β :=
  (ys.reverse.dropWhile (lt x)).reverse ++ x :: (ys.reverse.takeWhile (lt x)).reverse

/-- `sort.Slice`; `lt x y`: the answer of `less` for the element `x` just behind the element `y` -/
def goSort {β : Type} (big : List β → List β) (lt : β → β → Bool) (xs : List β) : List β :=
  if xs.length ≤ 12 then xs.foldl (insR lt) [] else big xs

/-- ordering.go:110-126 `occurenceOrder`. `less(j, j-1)` is false for equal numbers of occurrences. -/
def occurrenceOrder (big : List α → List α) (min2max : Bool) (f : Fm α) : List α :=
  goSort big (fun x y => if min2max then profile f x < profile f y else profile f x > profile f y) (dfsOrder f)

/-! ### FORCE -/

/-- rounding of a positive rational to the next number with 53 bits, ties to even -/
def round53 (q : Rat) : Rat :=
  if q ≤ 0 then 0
  else
    let a := q.num.toNat
    let e0 : Int := (Nat.log2 a : Int) - (Nat.log2 q.den : Int)
    let pow : Int → Rat := fun e => if 0 ≤ e then ((2 ^ e.toNat : Nat) : Rat) else 1 / ((2 ^ (-e).toNat : Nat) : Rat)
    let e := if pow e0 ≤ q then e0 else e0 - 1
    let u := pow (e - 52)
    let t := q / u
    let d := t.floor
    let r := t - (d : Rat)
    ((if r < 1 / 2 then d else if 1 / 2 < r then d + 1 else if d % 2 = 0 then d else d + 1 : Int) : Rat) * u

/-- hypergraph_generator.go:31-61: nodes and edges of the hyper-graph of the clauses of a CNF -/
def hypergraph (content : List α → List α) (cnf : Fm α) : List α × List (List α) :=
  let es := match cnf with
    | .lit l => [content [l.var]]
    | .or fs => [content (Fm.vars (.or fs))]
    | .and fs => fs.map fun c => content c.vars
    | _ => []
  (es.flatten.foldl addNew [], es)

/-- hypergraph.go:70-80 `centerOfGravity`; the position of a node is its index in the ordering -/
def gravity (order e : List α) : Rat := round53 (((e.map fun x => order.idxOf x).sum : Nat) / (e.length : Rat))

/-- hypergraph.go:62-68 `ComputeTentativeNewLocation` -/
def location (es : List (List α)) (order : List α) (x : α) : Rat :=
  let mine := es.filter fun e => x ∈ e
  round53 ((mine.foldl (fun s e => round53 (s + gravity order e)) 0) / (mine.length : Rat))

/-- ordering.go:227-235 `shouldProceed` -/
def shouldProceed (last cur : List α) : Bool :=
  last.length != cur.length || last.any fun x => cur.idxOf x != last.idxOf x

/-- ordering.go:172-176 and 201-225: the new ordering -/
def forceStep (big : List α → List α → List α) (nodes : List α) (es : List (List α)) (last : List α) : List α :=
  goSort (big last) (fun x y => location es last x < location es last y) nodes

/-- ordering.go:166-185: the loop of `force`; `none`: not finished after `n` rounds -/
def forceLoop (big : List α → List α → List α) (nodes : List α) (es : List (List α)) : Nat → List α → Option (List α)
  | 0, _ => none
  | n + 1, last =>
    let cur := forceStep big nodes es last
    if shouldProceed last cur then forceLoop big nodes es n cur else some cur

/-- ordering.go:133-158 `ForceOrder`; `pg` is the CNF transformation of line 139 -/
def forceOrder (big : List α → List α → List α) (content : List α → List α) (nnf pg : Fm α → Fm α) (n : Nat) (f : Fm α) : Option (List α) :=
  let orig := content (f.vars ++ (nnf f).vars)
  let cnf := pg (nnf f)
  let h := hypergraph content cnf
  (forceLoop big h.1 h.2 n (dfsOrder cnf)).map fun o => o.filter (· ∈ orig) ++ orig.filter (· ∉ o)

end Verif.Order
