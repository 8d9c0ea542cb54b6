import Verif.Util
import Mathlib.Data.List.Basic
/-!
# The bounded queue of `sat/queue.go` (first half of C39)
-/
namespace Verif.Data

/-- sat/queue.go:3-10 `boundedQueue` -/
structure BQ where
  elems : List Int
  first : Nat
  last : Nat
  sumOfQueue : Int
  maxSize : Nat
  queueSize : Nat
deriving DecidableEq

/-- queue.go:12-14 `newBoundedQueue` -/
def newBQ : BQ := ⟨[], 0, 0, 0, 0, 0⟩

/-- queue.go:20-35 `growTo`, called by `initSize` (16-18).  The case distinction on the capacity gives the same slice content here: a slice that is extended
within its capacity shows zeros, since the elements beyond its length were never written. -/
def growTo (q : BQ) (size : Nat) : BQ :=
  if q.elems.length ≥ size then q
  else { q with elems := q.elems ++ List.replicate (size - q.elems.length) 0, first := 0, maxSize := size, queueSize := 0, last := 0 }

/-- queue.go:37-54 `push`; `none` is an index panic -/
def push (q : BQ) (x : Int) : Option BQ :=
  let q1? : Option BQ :=
    if q.queueSize = q.maxSize then
      match q.elems[q.last]? with
      | none => none
      | some e => some { q with sumOfQueue := q.sumOfQueue - e, last := if q.last + 1 = q.maxSize then 0 else q.last + 1 }
    else some { q with queueSize := q.queueSize + 1 }
  match q1? with
  | none => none
  | some q1 =>
    if q1.first < q1.elems.length then
      if q1.first + 1 = q1.maxSize then
        some { q1 with sumOfQueue := q1.sumOfQueue + x, elems := q1.elems.set q1.first x, first := 0, last := 0 }
      else
        some { q1 with sumOfQueue := q1.sumOfQueue + x, elems := q1.elems.set q1.first x, first := q1.first + 1 }
    else none

/-- queue.go:56-58 `avg`; division by zero panics -/
def avg (q : BQ) : Option Int := if q.queueSize = 0 then none else some (q.sumOfQueue.tdiv q.queueSize)

/-- queue.go:60-62 `valid` -/
def valid (q : BQ) : Bool := q.queueSize == q.maxSize

/-- queue.go:64-69 `fastClear` -/
def fastClear (q : BQ) : BQ := { q with first := 0, last := 0, queueSize := 0, sumOfQueue := 0 }

/-- calls on an initialised queue -/
inductive QOp
  | push (x : Int)
  | clear

def qStep (q : BQ) : QOp → Option BQ
  | .push x => push q x
  | .clear => some (fastClear q)

/-- specification: the values pushed since the last clear -/
def hist : List QOp → List Int
  | ops => ops.foldl (fun h op => match op with | .push x => h ++ [x] | .clear => []) []

/-- the last `m` values -/
def window (m : Nat) (h : List Int) : List Int := h.drop (h.length - m)

structure QInv (m : Nat) (h : List Int) (q : BQ) : Prop where
  len : q.elems.length = m
  max : q.maxSize = m
  size : q.queueSize = min h.length m
  first : q.first = h.length % m
  last : q.last = if h.length < m then 0 else h.length % m
  sum : q.sumOfQueue = (window m h).sum
  elems : ∀ j, j < h.length → h.length ≤ j + m → q.elems[j % m]? = h[j]?

theorem window_push_lt {m : Nat} {h : List Int} {x : Int} (hl : h.length < m) : window m (h ++ [x]) = window m h ++ [x] := by
  simp only [window, List.length_append, List.length_singleton]
  rw [show h.length + 1 - m = 0 by omega, show h.length - m = 0 by omega]
  simp

theorem window_push_ge {m : Nat} {h : List Int} {x e : Int} (hm : 0 < m) (hl : m ≤ h.length) (he : h[h.length - m]? = some e) : (window m (h ++ [x])).sum = (window m h).sum - e + x := by
  simp only [window, List.length_append, List.length_singleton]
  rw [List.drop_append_of_le_length (by omega), List.sum_append]
  obtain ⟨hlt, he⟩ := List.getElem?_eq_some_iff.1 he
  rw [List.drop_eq_getElem_cons hlt, he, List.sum_cons, show h.length + 1 - m = h.length - m + 1 by omega]
  simp; omega

theorem mod_inj {m a b : Nat} (h1 : a < b) (h2 : b < a + m) : a % m ≠ b % m := by
  intro h
  have e1 := Nat.div_add_mod a m
  have e2 := Nat.div_add_mod b m
  have h3 : a / m ≤ b / m := Nat.div_le_div_right (by omega)
  rcases Nat.lt_or_ge (a / m) (b / m) with h4 | h4
  · have : m * (a / m + 1) ≤ m * (b / m) := Nat.mul_le_mul_left m h4
    rw [Nat.mul_add] at this; omega
  · have : a / m = b / m := by omega
    rw [this] at e1; omega

theorem mod_succ {m a : Nat} (hm : 0 < m) : (a + 1) % m = if a % m + 1 = m then 0 else a % m + 1 := by
  have h1 : a % m < m := Nat.mod_lt _ hm
  have h2 := Nat.div_add_mod a m
  split
  · rename_i h
    have : a + 1 = m * (a / m + 1) := by rw [Nat.mul_add]; omega
    rw [this]; simp
  · rename_i h
    have : a + 1 = a % m + 1 + m * (a / m) := by omega
    rw [this, Nat.add_mul_mod_self_left, Nat.mod_eq_of_lt (by omega)]

theorem push_inv {m : Nat} (hm : 0 < m) {h : List Int} {q : BQ} (I : QInv m h q) (x : Int) : ∃ q', push q x = some q' ∧ QInv m (h ++ [x]) q' := by
  have hfm : h.length % m < m := Nat.mod_lt _ hm
  have hset : ∀ j, j < h.length + 1 → h.length + 1 ≤ j + m → (q.elems.set (h.length % m) x)[j % m]? = (h ++ [x])[j]? := by
    intro j h1 h2
    by_cases e : j = h.length
    · subst e
      rw [List.getElem?_set_self (by rw [I.len]; exact hfm)]; simp
    · have : h.length % m ≠ j % m := fun h' => mod_inj (by omega) (by omega) h'.symm
      rw [List.getElem?_set_ne this, I.elems j (by omega) (by omega), List.getElem?_append_left (by omega)]
  have hlen : (h ++ [x]).length = h.length + 1 := by simp
  unfold push
  by_cases hl : h.length < m
  · have hs : q.queueSize = h.length := by rw [I.size]; omega
    rw [if_neg (by rw [hs, I.max]; omega)]
    dsimp only
    rw [I.first, I.len, if_pos hfm, I.max]
    have hmod : h.length % m = h.length := Nat.mod_eq_of_lt hl
    have hlast : q.last = 0 := by rw [I.last, if_pos hl]
    by_cases e : h.length % m + 1 = m
    · rw [if_pos e]
      refine ⟨_, rfl, by simp [I.len], rfl, ?_, ?_, ?_, ?_, ?_⟩
      · show q.queueSize + 1 = _
        rw [hs, hlen]; omega
      · show 0 = _
        rw [hlen, mod_succ hm, if_pos e]
      · show 0 = _
        rw [hlen, mod_succ hm, if_pos e]; simp
      · show q.sumOfQueue + x = _
        rw [window_push_lt hl, I.sum]; simp
      · rw [hlen]; exact hset
    · rw [if_neg e]
      refine ⟨_, rfl, by simp [I.len], rfl, ?_, ?_, ?_, ?_, ?_⟩
      · show q.queueSize + 1 = _
        rw [hs, hlen]; omega
      · show _ = _
        rw [hlen, mod_succ hm, if_neg e]
      · show q.last = _
        rw [hlast, hlen, if_pos (by omega)]
      · show q.sumOfQueue + x = _
        rw [window_push_lt hl, I.sum]; simp
      · rw [hlen]; exact hset
  · have hl' : m ≤ h.length := by omega
    have hs : q.queueSize = m := by rw [I.size]; omega
    have hlast : q.last = h.length % m := by rw [I.last, if_neg hl]
    obtain ⟨e0, he0⟩ : ∃ e, h[h.length - m]? = some e := ⟨_, List.getElem?_eq_getElem (by omega)⟩
    have hel : q.elems[h.length % m]? = some e0 := by
      have := I.elems (h.length - m) (by omega) (by omega)
      rw [he0] at this
      rwa [show (h.length - m) % m = h.length % m by
        conv_rhs => rw [show h.length = h.length - m + m by omega, Nat.add_mod_right]] at this
    rw [if_pos (by rw [hs, I.max]), hlast, hel]
    dsimp only
    rw [I.first, I.len, if_pos hfm, I.max]
    by_cases e : h.length % m + 1 = m
    · rw [if_pos e]
      refine ⟨_, rfl, by simp [I.len], rfl, ?_, ?_, ?_, ?_, ?_⟩
      · show q.queueSize = _
        rw [hs, hlen]; omega
      · show 0 = _
        rw [hlen, mod_succ hm, if_pos e]
      · show 0 = _
        rw [hlen, mod_succ hm, if_pos e]; simp
      · show q.sumOfQueue - e0 + x = _
        rw [window_push_ge hm hl' he0, I.sum]
      · rw [hlen]; exact hset
    · rw [if_neg e]
      refine ⟨_, rfl, by simp [I.len], rfl, ?_, ?_, ?_, ?_, ?_⟩
      · show q.queueSize = _
        rw [hs, hlen]; omega
      · show _ = _
        rw [hlen, mod_succ hm, if_neg e]
      · show (if h.length % m + 1 = m then 0 else h.length % m + 1) = _
        have : ¬ h.length + 1 < m := by omega
        rw [hlen, if_neg this, mod_succ hm]
      · show q.sumOfQueue - e0 + x = _
        rw [window_push_ge hm hl' he0, I.sum]
      · rw [hlen]; exact hset

theorem init_inv (m : Nat) (hm : 0 < m) : QInv m [] (growTo newBQ m) := by
  unfold growTo newBQ
  rw [if_neg (by simp; omega)]
  exact ⟨by simp, rfl, by simp, by simp, by simp, by simp [window], by simp⟩

theorem qfold_inv {m : Nat} (hm : 0 < m) : ∀ (ops : List QOp) {h : List Int} {q : BQ}, QInv m h q →
    ∃ q', foldOpt qStep q ops = some q' ∧ QInv m (ops.foldl (fun h op => match op with | .push x => h ++ [x] | .clear => []) h) q'
  | [], h, q, I => ⟨q, rfl, I⟩
  | .push x :: ops, h, q, I => by
    obtain ⟨q1, h1, I1⟩ := push_inv hm I x
    obtain ⟨q2, h2, I2⟩ := qfold_inv hm ops I1
    exact ⟨q2, by simp [foldOpt, qStep, h1, h2], I2⟩
  | .clear :: ops, h, q, I => by
    have I1 : QInv m [] (fastClear q) := ⟨I.len, I.max, by simp [fastClear], by simp [fastClear], by simp [fastClear], by simp [fastClear, window], by simp⟩
    obtain ⟨q2, h2, I2⟩ := qfold_inv hm ops I1
    exact ⟨q2, by simp [foldOpt, qStep, h2], I2⟩

/-- **C39 (queue).** A queue of positive size never panics on `push` and `fastClear`; it is `valid` exactly if at least `m` values were pushed since the last
clear, and `avg` is the truncated average of the last `m` values (of all values if there are fewer), with a panic only for an empty queue. -/
theorem C39_queue {m : Nat} (hm : 0 < m) (ops : List QOp) : ∃ q, foldOpt qStep (growTo newBQ m) ops = some q ∧
    (valid q = true ↔ m ≤ (hist ops).length) ∧
    avg q = if hist ops = [] then none else some ((window m (hist ops)).sum.tdiv (window m (hist ops)).length) := by
  obtain ⟨q, hq, I⟩ := qfold_inv hm ops (init_inv m hm)
  refine ⟨q, hq, ?_, ?_⟩
  · show (q.queueSize == q.maxSize) = true ↔ m ≤ (hist ops).length
    rw [beq_iff_eq, I.size, I.max]
    show min (hist ops).length m = m ↔ _
    omega
  · unfold avg
    rw [I.sum, I.size]
    show (if min (hist ops).length m = 0 then none else some ((window m (hist ops)).sum.tdiv (min (hist ops).length m : Nat))) = _
    have : (window m (hist ops)).length = min (hist ops).length m := by simp [window]; omega
    rw [this]
    by_cases h : hist ops = []
    · simp [h]
    · have : 0 < (hist ops).length := List.length_pos_iff.2 h
      rw [if_neg (by omega), if_neg h]

example : (foldOpt qStep (growTo newBQ 3) [.push 9, .clear, .push 1, .push 2, .push 3, .push 10, .push 20]).map (fun q => (avg q, valid q)) = some (some 11, true) := by decide

/-- `growTo` on a used queue keeps the old sum, so that the average is wrong; the solver calls it only once, on the new queue. -/
theorem C39_grow_used_false : ((push newBQ 1).isNone) ∧ ((push (growTo newBQ 1) 5).bind fun q => (push (growTo q 2) 1).bind avg) = some 6 := by decide

end Verif.Data
