import Verif.MaxSat.Base

/-! # The totalizer of package `maxsat` (enc_totalizer.go)

The encoder for `x₁ + … + xₙ ≤ k` used by the search algorithms.  In contrast to the encoder of package `encoding` it can be extended to larger bounds and further literals. -/

namespace Verif.MaxAlg

open Verif.MaxSat (litVal clauseVal costC)

/-! ## model -/

/-- enc_totalizer.go:6-9: one adder with the bound up to which its clauses are on the solver -/
structure Adder where
  l : List Nat
  r : List Nat
  o : List Nat
  rhs : Nat
deriving DecidableEq, Repr

/-- enc_totalizer.go:162-168: the clause for the counts `i` and `j` -/
def adderCl (l r o : List Nat) (i j : Nat) : List Nat :=
  (if i = 0 then [] else [neg (l.getD (i - 1) 0)]) ++ (if j = 0 then [] else [neg (r.getD (j - 1) 0)]) ++ [o.getD (i + j - 1) 0]

/-- enc_totalizer.go:154-170, 175-195: the clauses for all counts whose sum is selected by `p` -/
def adderAll (l r o : List Nat) (p : Nat → Bool) : List (List Nat) :=
  (List.range (l.length + 1)).flatMap fun i => (List.range (r.length + 1)).filterMap fun j => if i + j ≠ 0 ∧ p (i + j) = true then some (adderCl l r o i j) else none

/-- enc_totalizer.go:117-137: the literals of one half; `ins` are the inputs, the next one first -/
def part (m : Nat) (s : Sol) (ins : List Nat) : List Nat × Sol × List Nat :=
  if m = 1 then (ins.take 1, s, ins.drop 1) else ((s.freshN m).1, (s.freshN m).2, ins)

/-- enc_totalizer.go:113 `toCnf`; returns the solver, the remaining inputs and the adders (see `Tot.old`) -/
def toCnf (rhs : Nat) : Nat → Sol → List Nat → List Nat → Sol × List Nat × List Adder
  | 0, s, ins, _ => (s, ins, [])
  | k + 1, s, ins, o =>
    let p1 := part (o.length / 2) s ins
    let p2 := part (o.length - o.length / 2) p1.2.1 p1.2.2
    let s := p2.2.1.addAll (adderAll p1.1 p2.1 o fun m => decide (m ≤ rhs + 1))
    let q1 := if 1 < p1.1.length then toCnf rhs k s p2.2.2 p1.1 else (s, p2.2.2, [])
    let q2 := if 1 < p2.1.length then toCnf rhs k q1.1 q1.2.1 p2.1 else (q1.1, q1.2.1, [])
    (q2.1, q2.2.1, ⟨p1.1, p2.1, o, rhs⟩ :: (q1.2.2 ++ q2.2.2))

/-- enc_totalizer.go:5-18 -/
structure Tot where
  inc : Bool
  join : Bool := false
  has : Bool := false
  out : List Nat := []
  ilits : List Nat := []
  zs : List Adder := []
deriving DecidableEq, Repr

/-- the recorded adders that are kept when a new encoding is built: those of the iterative strategy.  With strategy none the code records no adders; the model keeps those of the last
encoding, which nothing reads. -/
def Tot.old (t : Tot) : List Adder := if t.inc then t.zs else []

/-- enc_totalizer.go:81 `build` -/
def Tot.build (t : Tot) (s : Sol) (lits : List Nat) (rhs : Nat) : Tot × Sol :=
  if rhs = 0 then ({ t with out := [], has := false }, s.addAll (lits.map fun l => [neg l]))
  else if t.inc = false ∧ rhs = lits.length then ({ t with out := [], has := false }, s)
  else if rhs = lits.length ∧ t.join = false then ({ t with out := [], has := false }, s)
  else
    let o := (s.freshN lits.length).1
    let r := toCnf rhs (lits.length + 1) (s.freshN lits.length).2 lits.reverse o
    ({ t with out := o, zs := t.old ++ r.2.2, join := true, has := true, ilits := lits }, r.1)

/-- enc_totalizer.go:173 `incremental` -/
def Tot.incremental (t : Tot) (s : Sol) (rhs : Nat) : Tot × Sol :=
  ({ t with zs := t.zs.map fun z => { z with rhs := rhs } }, s.addAll (t.zs.flatMap fun z => adderAll z.l z.r z.o fun m => decide (m ≤ rhs + 1) && !decide (m ≤ z.rhs + 1)))

/-- enc_totalizer.go:66 `updateWithAssumptions`: the new assumptions, if they are set; `none` is the panic of `make` with a negative length -/
def Tot.update (t : Tot) (s : Sol) (rhs : Nat) : Option (Tot × Sol × List Nat) :=
  if t.inc = false then some (t, s.addAll ((t.out.drop rhs).map fun l => [neg l]), [])
  else if t.out.length < rhs then none
  else some ((t.incremental s rhs).1, (t.incremental s rhs).2, (t.out.drop rhs).map neg)

/-- enc_totalizer.go:41 `join`, for at least one literal -/
def Tot.joinLits (t : Tot) (s : Sol) (lits : List Nat) (rhs : Nat) : Tot × Sol :=
  let b := if 1 < lits.length then t.build s lits (min rhs lits.length) else ({ t with out := lits }, s)
  let o := (b.2.freshN (t.out.length + b.1.out.length)).1
  let s := (b.2.freshN (t.out.length + b.1.out.length)).2
  ({ b.1 with out := o, zs := b.1.zs ++ [⟨t.out, b.1.out, o, rhs⟩], ilits := b.1.ilits ++ lits }, s.addAll (adderAll t.out b.1.out o fun m => decide (m ≤ rhs + 1)))

/-- encoder.go:30 `encodeCardinality` -/
def Tot.encode (t : Tot) (s : Sol) (lits : List Nat) (rhs : Nat) : Option (Tot × Sol) :=
  let b := t.build s lits rhs
  if b.1.has then (b.1.update b.2 rhs).map fun r => (r.1, r.2.1) else some b

/-- encoder.go:45 `incUpdateCardinality` -/
def Tot.incUpdate (t : Tot) (s : Sol) (joined : List Nat) (rhs : Nat) : Option (Tot × Sol × List Nat) :=
  if joined = [] then t.update s rhs else (t.joinLits s joined rhs).1.update (t.joinLits s joined rhs).2 rhs

/-! ## the clauses count -/

/-- the clause for the counts `i` and `j` on the solver, up to the given sum -/
def Cov (s : Sol) (z : Adder) (b : Nat) : Prop := ∀ i j, i ≤ z.l.length → j ≤ z.r.length → i + j ≠ 0 → i + j ≤ b + 1 → adderCl z.l z.r z.o i j ∈ s.cs

/-- all clauses of an adder hold -/
def Full (u : Nat → Bool) (z : Adder) : Prop := ∀ i j, i ≤ z.l.length → j ≤ z.r.length → i + j ≠ 0 → clauseVal u (adderCl z.l z.r z.o i j) = true

/-- the adders compute the outputs from the inputs -/
inductive Cnt (Z : List Adder) : List Nat → List Nat → Prop
  | nil : Cnt Z [] []
  | leaf (x : Nat) : Cnt Z [x] [x]
  | node {z : Adder} {li ri : List Nat} (hz : z ∈ Z) (hl : z.o.length = z.l.length + z.r.length) (h1 : Cnt Z z.l li) (h2 : Cnt Z z.r ri) : Cnt Z z.o (li ++ ri)

/-- the outputs are the unary representation of the number of true inputs -/
def Exact (u : Nat → Bool) (o ins : List Nat) : Prop := o.length = ins.length ∧ ∀ k, k < o.length → litVal u (o.getD k 0) = decide (k + 1 ≤ cnt u ins)

theorem mem_adderAll {l r o : List Nat} {p : Nat → Bool} {c : List Nat} :
    c ∈ adderAll l r o p ↔ ∃ i j, i ≤ l.length ∧ j ≤ r.length ∧ i + j ≠ 0 ∧ p (i + j) = true ∧ c = adderCl l r o i j := by
  unfold adderAll
  simp only [List.mem_flatMap, List.mem_range, List.mem_filterMap, Option.ite_none_right_eq_some, Option.some.injEq]
  constructor
  · rintro ⟨i, hi, j, hj, ⟨h1, h2⟩, h3⟩
    exact ⟨i, j, by omega, by omega, h1, h2, h3.symm⟩
  · rintro ⟨i, j, hi, hj, h1, h2, h3⟩
    exact ⟨i, by omega, j, by omega, ⟨h1, h2⟩, h3.symm⟩

theorem Cnt.mono {Z Z' : List Adder} (h : ∀ z ∈ Z, z ∈ Z') {o ins : List Nat} (c : Cnt Z o ins) : Cnt Z' o ins := by
  induction c with
  | nil => exact .nil
  | leaf x => exact .leaf x
  | node hz hl _ _ ih1 ih2 => exact .node (h _ hz) hl ih1 ih2

theorem Cnt.length {Z : List Adder} {o ins : List Nat} (c : Cnt Z o ins) : o.length = ins.length := by
  induction c with
  | nil => rfl
  | leaf x => rfl
  | node hz hl _ _ ih1 ih2 => rw [hl, ih1, ih2, List.length_append]

/-- with the clauses up to a bound, the outputs are true as far as the inputs are -/
theorem Cnt.sound {Z : List Adder} {s : Sol} {b : Nat} (hc : ∀ z ∈ Z, Cov s z b) {u : Nat → Bool} (hu : s.Holds u) {o ins : List Nat} (c : Cnt Z o ins) :
    ∀ k, k ≤ cnt u ins → 0 < k → k ≤ b + 1 → litVal u (o.getD (k - 1) 0) = true := by
  induction c with
  | nil => intro k hk h0; simp [cnt] at hk; omega
  | leaf x =>
    intro k hk h0 _
    have h1 := cnt_le u [x]
    rw [List.length_singleton] at h1
    have : k = 1 := by omega
    subst this
    by_cases hx : litVal u x = true
    · exact hx
    · exfalso
      have : cnt u [x] = 0 := cnt_eq_zero.2 fun l hl => by rw [List.mem_singleton.1 hl]; exact Bool.eq_false_iff.2 hx
      omega
  | @node z li ri hz hl c1 c2 ih1 ih2 =>
    intro k hk h0 hb
    rw [cnt_append] at hk
    obtain ⟨i, j, hi, hj, hij⟩ : ∃ i j, i ≤ cnt u li ∧ j ≤ cnt u ri ∧ i + j = k := ⟨min k (cnt u li), k - min k (cnt u li), by omega, by omega, by omega⟩
    have h1 := c1.length
    have h2 := c2.length
    have h3 := cnt_le u li
    have h4 := cnt_le u ri
    have := hu _ (hc z hz i j (by omega) (by omega) (by omega) (by omega))
    obtain ⟨l, hm, hv⟩ := clauseVal_iff.1 this
    unfold adderCl at hm
    rw [hij] at hm
    rcases List.mem_append.1 hm with hm | hm
    · rcases List.mem_append.1 hm with hm | hm
      · split at hm
        · cases hm
        · rename_i hi0
          rw [List.mem_singleton.1 hm, litVal_neg, ih1 i hi (by omega) (by omega)] at hv
          cases hv
      · split at hm
        · cases hm
        · rename_i hj0
          rw [List.mem_singleton.1 hm, litVal_neg, ih2 j hj (by omega) (by omega)] at hv
          cases hv
    · rw [List.mem_singleton.1 hm] at hv; exact hv

/-- exact halves and an exact output satisfy all clauses of the adder -/
theorem full_of_exact {u : Nat → Bool} {z : Adder} {li ri : List Nat} (h1 : Exact u z.l li) (h2 : Exact u z.r ri) (h3 : Exact u z.o (li ++ ri)) : Full u z := by
  intro i j hi hj h0
  rw [clauseVal_iff]
  have hlen : z.o.length = z.l.length + z.r.length := by rw [h3.1, List.length_append, h1.1, h2.1]
  by_cases hc : i + j ≤ cnt u (li ++ ri)
  · refine ⟨z.o.getD (i + j - 1) 0, ?_, ?_⟩
    · unfold adderCl; simp
    · rw [h3.2 _ (by omega)]
      exact decide_eq_true (by omega)
  · rw [cnt_append] at hc
    by_cases hci : i ≤ cnt u li
    · have hcj : cnt u ri < j := by omega
      refine ⟨neg (z.r.getD (j - 1) 0), ?_, ?_⟩
      · unfold adderCl
        rw [if_neg (by omega : ¬ j = 0)]; simp
      · rw [litVal_neg, h2.2 _ (by omega), decide_eq_false (by omega)]; rfl
    · refine ⟨neg (z.l.getD (i - 1) 0), ?_, ?_⟩
      · unfold adderCl
        rw [if_neg (by omega : ¬ i = 0)]; simp
      · rw [litVal_neg, h1.2 _ (by omega), decide_eq_false (by omega)]; rfl

theorem Exact.congr {u w : Nat → Bool} {o ins : List Nat} (ho : ∀ l ∈ o, u (l / 2) = w (l / 2)) (hi : ∀ l ∈ ins, u (l / 2) = w (l / 2)) (h : Exact u o ins) : Exact w o ins := by
  refine ⟨h.1, fun k hk => ?_⟩
  have e : o.getD k 0 = o[k] := by simp [hk]
  rw [← cnt_congr hi, ← h.2 k hk]
  refine (litVal_congr ?_).symm
  rw [e]; exact ho _ (List.getElem_mem hk)

theorem Exact.single (u : Nat → Bool) (x : Nat) : Exact u [x] [x] := by
  refine ⟨rfl, fun k hk => ?_⟩
  have : k = 0 := by simpa using hk
  subst this
  show litVal u x = _
  unfold cnt
  cases h : litVal u x <;> simp [h]

theorem Exact.nil (u : Nat → Bool) : Exact u [] [] := ⟨rfl, fun k hk => absurd hk (by simp)⟩

theorem Exact.perm {u : Nat → Bool} {o a b : List Nat} (p : a.Perm b) (h : Exact u o a) : Exact u o b := by
  refine ⟨by rw [h.1, p.length_eq], fun k hk => by rw [h.2 k hk, cnt_perm p]⟩

/-- all literals belong to the first variables -/
def Below (n : Nat) (ls : List Nat) : Prop := ∀ l ∈ ls, l / 2 < n

theorem Below.mono {n m : Nat} {ls : List Nat} (h : Below n ls) (hm : n ≤ m) : Below m ls := fun l hl => Nat.lt_of_lt_of_le (h l hl) hm

theorem below_freshN (s : Sol) (k : Nat) : Below (s.n + k) (s.freshN k).1 := by
  intro l hl
  obtain ⟨v, hv, rfl⟩ := List.mem_map.1 hl
  have := (List.mem_range'_1.1 hv)
  show 2 * v / 2 < s.n + k
  omega

theorem freshN_ge {s : Sol} {k l : Nat} (hl : l ∈ (s.freshN k).1) : s.n ≤ l / 2 := by
  obtain ⟨v, hv, rfl⟩ := List.mem_map.1 hl
  have := (List.mem_range'_1.1 hv)
  show s.n ≤ 2 * v / 2
  omega

theorem length_freshN (s : Sol) (k : Nat) : (s.freshN k).1.length = k := by simp [Sol.freshN]

/-- values for the fresh literals that count -/
def setCount (u : Nat → Bool) (n k : Nat) (ins : List Nat) : Nat → Bool := fun x => if n ≤ x ∧ x < n + k then decide (x - n + 1 ≤ cnt u ins) else u x

theorem exact_setCount {s : Sol} {k : Nat} {u : Nat → Bool} {ins : List Nat} (hl : ins.length = k) (hb : Below s.n ins) : Exact (setCount u s.n k ins) (s.freshN k).1 ins := by
  have hc : cnt (setCount u s.n k ins) ins = cnt u ins := cnt_congr fun l hm => by
    have := hb l hm
    unfold setCount; rw [if_neg (by omega)]
  refine ⟨by rw [length_freshN, hl], fun i hi => ?_⟩
  rw [length_freshN] at hi
  have : (s.freshN k).1.getD i 0 = 2 * (s.n + i) := by
    unfold Sol.freshN; simp [hi]
  rw [this, litVal_two, hc]
  unfold setCount
  rw [if_pos (by omega), show s.n + i - s.n + 1 = i + 1 by omega]

theorem setCount_old {u : Nat → Bool} {n k x : Nat} {ins : List Nat} (h : x < n) : setCount u n k ins x = u x := by
  unfold setCount; rw [if_neg (by omega)]

theorem below_adderCl {n : Nat} {l r o : List Nat} (hl : Below n l) (hr : Below n r) (ho : Below n o) (he : o.length = l.length + r.length) {i j : Nat} (hi : i ≤ l.length)
    (hj : j ≤ r.length) (h0 : i + j ≠ 0) : Below n (adderCl l r o i j) := by
  have key : ∀ (a : List Nat) (k : Nat), Below n a → k < a.length → a.getD k 0 / 2 < n := by
    intro a k ha hk
    have e : a.getD k 0 = a[k] := by simp [hk]
    rw [e]; exact ha _ (List.getElem_mem hk)
  intro x hx
  unfold adderCl at hx
  rcases List.mem_append.1 hx with hx | hx
  · rcases List.mem_append.1 hx with hx | hx
    · split at hx
      · cases hx
      · rw [List.mem_singleton.1 hx, neg_div]; exact key _ _ hl (by omega)
    · split at hx
      · cases hx
      · rw [List.mem_singleton.1 hx, neg_div]; exact key _ _ hr (by omega)
  · rw [List.mem_singleton.1 hx]; exact key _ _ ho (by omega)

/-- an adder over variables of the solver -/
structure Adder.WF (n : Nat) (z : Adder) : Prop where
  l : Below n z.l
  r : Below n z.r
  o : Below n z.o
  len : z.o.length = z.l.length + z.r.length

theorem Adder.WF.mono {n m : Nat} {z : Adder} (h : z.WF n) (hm : n ≤ m) : z.WF m := ⟨h.l.mono hm, h.r.mono hm, h.o.mono hm, h.len⟩

theorem Full.congr {n : Nat} {z : Adder} (hz : z.WF n) {u w : Nat → Bool} (h : ∀ x < n, u x = w x) (hf : Full u z) : Full w z := by
  intro i j hi hj h0
  rw [← hf i j hi hj h0]
  exact clauseVal_congr fun l hl => (h _ (below_adderCl hz.l hz.r hz.o hz.len hi hj h0 l hl)).symm

/-- what `toCnf` guarantees of its result -/
structure TSpec (rhs : Nat) (s : Sol) (o used rest : List Nat) (r : Sol × List Nat × List Adder) : Prop where
  rest : r.2.1 = rest
  mono : s.n ≤ r.1.n
  wf : ∀ z ∈ r.2.2, z.WF r.1.n
  bound : ∀ z ∈ r.2.2, z.rhs = rhs
  cs : ∀ c, c ∈ r.1.cs ↔ c ∈ s.cs ∨ ∃ z ∈ r.2.2, ∃ i j, i ≤ z.l.length ∧ j ≤ z.r.length ∧ i + j ≠ 0 ∧ i + j ≤ rhs + 1 ∧ c = adderCl z.l z.r z.o i j
  cnt : Cnt r.2.2 o used
  full : ∀ u, Exact u o used → ∃ u' : Nat → Bool, (∀ x < s.n, u' x = u x) ∧ ∀ z ∈ r.2.2, Full u' z

theorem part_spec (m : Nat) (s : Sol) (ins : List Nat) (hm : m ≤ ins.length) (hb : Below s.n ins) :
    s.n ≤ (part m s ins).2.1.n ∧ (part m s ins).2.1.cs = s.cs ∧ Below (part m s ins).2.1.n (part m s ins).1 ∧ (part m s ins).1.length = m ∧
    (part m s ins).2.2 = (if m = 1 then ins.drop 1 else ins) ∧ (m = 1 → (part m s ins).1 = ins.take 1) ∧
    (∀ (u : Nat → Bool) li, (m = 1 → li = ins.take 1) → li.length = m → Below s.n li → ∃ u' : Nat → Bool, (∀ x < s.n, u' x = u x) ∧ Exact u' (part m s ins).1 li) := by
  unfold part
  by_cases h1 : m = 1
  · subst h1
    rw [if_pos rfl, if_pos rfl]
    obtain ⟨x, xs, rfl⟩ : ∃ x xs, ins = x :: xs := by
      cases ins with
      | nil => simp at hm
      | cons x xs => exact ⟨x, xs, rfl⟩
    refine ⟨Nat.le_refl _, rfl, ?_, rfl, rfl, fun _ => rfl, fun u li hl _ _ => ⟨u, fun _ _ => rfl, ?_⟩⟩
    · intro l hl
      exact hb l (List.mem_of_mem_take hl)
    · rw [hl rfl]; exact Exact.single u x
  · rw [if_neg h1, if_neg h1]
    refine ⟨Nat.le_add_right _ _, rfl, below_freshN s m, length_freshN s m, rfl, fun h => absurd h h1, fun u li _ hl hli => ⟨setCount u s.n m li, fun x hx => setCount_old hx, ?_⟩⟩
    exact exact_setCount hl hli

theorem toCnf_spec (rhs : Nat) : ∀ (k : Nat) (s : Sol) (ins o : List Nat), o.length < k → o.length ≤ ins.length → Below s.n o → Below s.n ins →
    TSpec rhs s o (ins.take o.length) (ins.drop o.length) (toCnf rhs k s ins o) := by
  intro k
  induction k with
  | zero => intro s ins o h; omega
  | succ k ih =>
    intro s ins o hk hn ho hi
    rw [toCnf]
    have hm1 : o.length / 2 + (o.length - o.length / 2) = o.length := by omega
    obtain ⟨m1, e1⟩ : ∃ m, m = o.length / 2 := ⟨_, rfl⟩
    obtain ⟨m2, e2⟩ : ∃ m, m = o.length - o.length / 2 := ⟨_, rfl⟩
    rw [← e2, ← e1]
    obtain ⟨a1, a2, a3, a4, a5, a6, a7⟩ := part_spec m1 s ins (by omega) hi
    obtain ⟨p1, hp1⟩ : ∃ p, part m1 s ins = p := ⟨_, rfl⟩
    rw [hp1] at a1 a2 a3 a4 a5 a6 a7 ⊢
    have hb1 : Below p1.2.1.n p1.2.2 := by
      rw [a5]
      intro l hl
      refine Nat.lt_of_lt_of_le (hi l ?_) a1
      split at hl
      · exact List.mem_of_mem_drop hl
      · exact hl
    have hl1 : p1.2.2.length = ins.length - (if m1 = 1 then 1 else 0) := by rw [a5]; split <;> simp
    obtain ⟨b1, b2, b3, b4, b5, b6, b7⟩ := part_spec m2 p1.2.1 p1.2.2 (by rw [hl1]; split <;> omega) hb1
    obtain ⟨p2, hp2⟩ : ∃ p, part m2 p1.2.1 p1.2.2 = p := ⟨_, rfl⟩
    rw [hp2] at b1 b2 b3 b4 b5 b6 b7 ⊢
    obtain ⟨s2, hs2⟩ : ∃ s2, p2.2.1.addAll (adderAll p1.1 p2.1 o fun m => decide (m ≤ rhs + 1)) = s2 := ⟨_, rfl⟩
    rw [hs2]
    have n2 : s2.n = p2.2.1.n := by rw [← hs2]; rfl
    have c2 : ∀ c, c ∈ s2.cs ↔ (∃ i j, i ≤ p1.1.length ∧ j ≤ p2.1.length ∧ i + j ≠ 0 ∧ i + j ≤ rhs + 1 ∧ c = adderCl p1.1 p2.1 o i j) ∨ c ∈ s.cs := by
      intro c
      rw [← hs2]
      show c ∈ _ ++ p2.2.1.cs ↔ _
      rw [List.mem_append, mem_adderAll, b2, a2]
      simp only [decide_eq_true_eq]
    have hb2 : Below s2.n p2.2.2 := by
      rw [b5, n2]
      intro l hl
      refine Nat.lt_of_lt_of_le (hb1 l ?_) b1
      split at hl
      · exact List.mem_of_mem_drop hl
      · exact hl
    have zwf : Adder.WF s2.n ⟨p1.1, p2.1, o, rhs⟩ := by
      rw [n2]
      exact ⟨a3.mono b1, b3, ho.mono (Nat.le_trans a1 b1), (by omega : o.length = p1.1.length + p2.1.length)⟩
    -- the left half
    have hl2 : p2.2.2.length = ins.length - (if m1 = 1 then 1 else 0) - (if m2 = 1 then 1 else 0) := by rw [b5]; split <;> simp [hl1]
    have L : TSpec rhs s2 p1.1 (if m1 = 1 then ins.take 1 else p2.2.2.take m1) (if 1 < m1 then p2.2.2.drop m1 else p2.2.2)
        (if 1 < p1.1.length then toCnf rhs k s2 p2.2.2 p1.1 else (s2, p2.2.2, [])) := by
      by_cases hlt : 1 < m1
      · rw [a4, if_neg (by omega : ¬ m1 = 1), if_pos hlt, if_pos hlt]
        have := ih s2 p2.2.2 p1.1 (by rw [a4]; omega) (by rw [a4, hl2, if_neg (by omega : ¬ m1 = 1)]; split <;> omega) (by rw [n2]; exact a3.mono b1) hb2
        rw [a4] at this; exact this
      · rw [a4, if_neg hlt, if_neg hlt]
        refine ⟨rfl, Nat.le_refl _, fun z hz => (nomatch hz), fun z hz => (nomatch hz), fun c => ⟨fun h => .inl h, fun h => h.elim id fun ⟨z, hz, _⟩ => (nomatch hz)⟩, ?_,
          fun u _ => ⟨u, fun _ _ => rfl, fun z hz => (nomatch hz)⟩⟩
        by_cases h1 : m1 = 1
        · rw [if_pos h1, a6 h1]
          obtain ⟨x, xs, rfl⟩ : ∃ x xs, ins = x :: xs := by
            cases ins with
            | nil => rw [List.length_nil] at hn; omega
            | cons x xs => exact ⟨x, xs, rfl⟩
          exact .leaf x
        · rw [if_neg h1]
          have h0 : m1 = 0 := by omega
          rw [h0] at a4 ⊢
          rw [List.eq_nil_of_length_eq_zero a4]
          exact .nil
    obtain ⟨q1, hq1⟩ : ∃ q, (if 1 < p1.1.length then toCnf rhs k s2 p2.2.2 p1.1 else (s2, p2.2.2, [])) = q := ⟨_, rfl⟩
    rw [hq1] at L ⊢
    have R : TSpec rhs q1.1 p2.1 (if m2 = 1 then p1.2.2.take 1 else q1.2.1.take m2) (if 1 < m2 then q1.2.1.drop m2 else q1.2.1)
        (if 1 < p2.1.length then toCnf rhs k q1.1 q1.2.1 p2.1 else (q1.1, q1.2.1, [])) := by
      by_cases hlt : 1 < m2
      · rw [b4, if_neg (by omega : ¬ m2 = 1), if_pos hlt, if_pos hlt]
        have hbq : Below q1.1.n q1.2.1 := by
          rw [L.rest]
          intro l hl
          refine Nat.lt_of_lt_of_le (hb2 l ?_) L.mono
          split at hl
          · exact List.mem_of_mem_drop hl
          · exact hl
        have hlq : m2 ≤ q1.2.1.length := by
          rw [L.rest]
          split
          · rw [List.length_drop, hl2, if_neg (by omega : ¬ m1 = 1), if_neg (by omega : ¬ m2 = 1)]; omega
          · rw [hl2, if_neg (by omega : ¬ m2 = 1)]
            split <;> omega
        have := ih q1.1 q1.2.1 p2.1 (by rw [b4]; omega) (by rw [b4]; exact hlq) (b3.mono (by rw [← n2]; exact L.mono)) hbq
        rw [b4] at this; exact this
      · rw [b4, if_neg hlt, if_neg hlt]
        refine ⟨rfl, Nat.le_refl _, fun z hz => (nomatch hz), fun z hz => (nomatch hz), fun c => ⟨fun h => .inl h, fun h => h.elim id fun ⟨z, hz, _⟩ => (nomatch hz)⟩, ?_,
          fun u _ => ⟨u, fun _ _ => rfl, fun z hz => (nomatch hz)⟩⟩
        by_cases h1 : m2 = 1
        · rw [if_pos h1, b6 h1]
          obtain ⟨x, xs, he⟩ : ∃ x xs, p1.2.2 = x :: xs := by
            cases h : p1.2.2 with
            | nil => rw [h] at hl1; simp at hl1; split at hl1 <;> omega
            | cons x xs => exact ⟨x, xs, rfl⟩
          rw [he]
          exact .leaf x
        · rw [if_neg h1]
          have h0 : m2 = 0 := by omega
          rw [h0] at b4 ⊢
          rw [List.eq_nil_of_length_eq_zero b4]
          exact .nil
    obtain ⟨q2, hq2⟩ : ∃ q, (if 1 < p2.1.length then toCnf rhs k q1.1 q1.2.1 p2.1 else (q1.1, q1.2.1, [])) = q := ⟨_, rfl⟩
    rw [hq2] at R ⊢
    obtain ⟨li, hli⟩ : ∃ li, (if m1 = 1 then ins.take 1 else p2.2.2.take m1) = li := ⟨_, rfl⟩
    obtain ⟨ri, hri⟩ : ∃ ri, (if m2 = 1 then p1.2.2.take 1 else q1.2.1.take m2) = ri := ⟨_, rfl⟩
    rw [hli] at L; rw [hri] at R
    have hsplit : li ++ ri = ins.take o.length ∧ (if 1 < m2 then q1.2.1.drop m2 else q1.2.1) = ins.drop o.length := by
      have hol : o.length = m1 + m2 := by omega
      rw [hol, List.take_add, ← hli, ← hri, L.rest, b5, a5]
      by_cases h1 : m1 = 1 <;> by_cases h2 : m2 = 1
      · simp [h1, h2]
      · have h3 : 1 < m2 := by omega
        simp [h1, h2, h3, Nat.add_comm]
      · have h0 : m1 = 0 := by omega
        simp [h0, h2]
      · by_cases h0 : m1 = 0
        · have h4 : m2 = 0 := by omega
          simp [h0, h4]
        · have h3 : 1 < m1 := by omega
          have h4 : 1 < m2 := by omega
          simp [h1, h2, h3, h4, Nat.add_comm]
    have hbl : Below s.n (li ++ ri) := by
      rw [hsplit.1]; exact fun l hl => hi l (List.mem_of_mem_take hl)
    have hlen1 : li.length = m1 := by rw [← L.cnt.length, a4]
    have hlen2 : ri.length = m2 := by rw [← R.cnt.length, b4]
    refine ⟨by rw [R.rest, hsplit.2], Nat.le_trans (by rw [n2]; exact Nat.le_trans a1 b1) (Nat.le_trans L.mono R.mono), ?_, ?_, ?_, ?_, ?_⟩
    · intro z hz
      rcases List.mem_cons.1 hz with rfl | hz
      · exact zwf.mono (Nat.le_trans L.mono R.mono)
      · rcases List.mem_append.1 hz with hz | hz
        · exact (L.wf z hz).mono R.mono
        · exact R.wf z hz
    · intro z hz
      rcases List.mem_cons.1 hz with rfl | hz
      · rfl
      · rcases List.mem_append.1 hz with hz | hz
        · exact L.bound z hz
        · exact R.bound z hz
    · intro c
      rw [R.cs, L.cs, c2]
      constructor
      · rintro (((h | h) | ⟨z, hz, h⟩) | ⟨z, hz, h⟩)
        · exact .inr ⟨_, List.mem_cons_self, h⟩
        · exact .inl h
        · exact .inr ⟨z, List.mem_cons_of_mem _ (List.mem_append_left _ hz), h⟩
        · exact .inr ⟨z, List.mem_cons_of_mem _ (List.mem_append_right _ hz), h⟩
      · rintro (h | ⟨z, hz, h⟩)
        · exact .inl (.inl (.inr h))
        · rcases List.mem_cons.1 hz with rfl | hz
          · exact .inl (.inl (.inl h))
          · rcases List.mem_append.1 hz with hz | hz
            · exact .inl (.inr ⟨z, hz, h⟩)
            · exact .inr ⟨z, hz, h⟩
    · rw [← hsplit.1]
      refine Cnt.node (z := ⟨p1.1, p2.1, o, rhs⟩) List.mem_cons_self zwf.len (L.cnt.mono ?_) (R.cnt.mono ?_)
      · exact fun z hz => List.mem_cons_of_mem _ (List.mem_append_left _ hz)
      · exact fun z hz => List.mem_cons_of_mem _ (List.mem_append_right _ hz)
    · intro u hu
      rw [← hsplit.1] at hu
      obtain ⟨u1, h1, x1⟩ := a7 u li (fun e => by rw [← hli, if_pos e]) hlen1 (fun l hl => hbl l (List.mem_append_left _ hl))
      obtain ⟨u2, h2, x2⟩ := b7 u1 ri (fun e => by rw [← hri, if_pos e]) hlen2 (fun l hl => Nat.lt_of_lt_of_le (hbl l (List.mem_append_right _ hl)) a1)
      have x1' : Exact u2 p1.1 li := x1.congr (fun l hl => (h2 _ (a3 l hl)).symm) (fun l hl => (h2 _ (Nat.lt_of_lt_of_le (hbl l (List.mem_append_left _ hl)) a1)).symm)
      have h12 : ∀ x < s.n, u2 x = u x := fun x hx => by rw [h2 x (Nat.lt_of_lt_of_le hx a1), h1 x hx]
      have xo : Exact u2 o (li ++ ri) := hu.congr (fun l hl => (h12 _ (ho l hl)).symm) (fun l hl => (h12 _ (hbl l hl)).symm)
      have hz := full_of_exact (z := ⟨p1.1, p2.1, o, rhs⟩) x1' x2 xo
      obtain ⟨u3, h3, f3⟩ := L.full u2 x1'
      have n12 : s.n ≤ s2.n := by rw [n2]; exact Nat.le_trans a1 b1
      have x2' : Exact u3 p2.1 ri := x2.congr (fun l hl => (h3 _ (by rw [n2]; exact b3 l hl)).symm) (fun l hl => (h3 _ (Nat.lt_of_lt_of_le (hbl l (List.mem_append_right _ hl)) n12)).symm)
      obtain ⟨u4, h4, f4⟩ := R.full u3 x2'
      refine ⟨u4, fun x hx => ?_, fun z hzm => ?_⟩
      · rw [h4 x (Nat.lt_of_lt_of_le hx (Nat.le_trans n12 L.mono)), h3 x (Nat.lt_of_lt_of_le hx n12), h12 x hx]
      · rcases List.mem_cons.1 hzm with rfl | hzm
        · exact hz.congr zwf fun x hx => by rw [h4 x (Nat.lt_of_lt_of_le hx L.mono), h3 x hx]
        · rcases List.mem_append.1 hzm with hzm | hzm
          · exact (f3 z hzm).congr (L.wf z hzm) fun x hx => (h4 x hx).symm
          · exact f4 z hzm

/-! ## the operations -/

/-- clauses and recorded adders of a totalizer on a solver fit together -/
structure Pre (Z : List Adder) (s : Sol) : Prop where
  swf : s.WF
  wf : ∀ z ∈ Z, z.WF s.n
  cov : ∀ z ∈ Z, Cov s z z.rhs

/-- the totalizer counts the literals -/
structure Counts (t : Tot) (s : Sol) (ins : List Nat) : Prop where
  pre : Pre t.zs s
  out : Below s.n t.out
  bins : Below s.n ins
  tree : ∃ ls, Cnt t.zs t.out ls ∧ ls.Perm ins

theorem Counts.length {t : Tot} {s : Sol} {ins : List Nat} (h : Counts t s ins) : t.out.length = ins.length := by
  obtain ⟨ls, h1, h2⟩ := h.tree
  rw [h1.length, h2.length_eq]

/-- the auxiliary variables have the values of an exact count -/
structure Canon (u : Nat → Bool) (t : Tot) (ins : List Nat) : Prop where
  full : ∀ z ∈ t.zs, Full u z
  exact : Exact u t.out ins

theorem Canon.congr {t : Tot} {s : Sol} {ins : List Nat} (hc : Counts t s ins) {u w : Nat → Bool} (h : ∀ x < s.n, u x = w x) (hu : Canon u t ins) : Canon w t ins :=
  ⟨fun z hz => (hu.full z hz).congr (hc.pre.wf z hz) h, hu.exact.congr (fun l hl => h _ (hc.out l hl)) (fun l hl => h _ (hc.bins l hl))⟩

theorem Cov.le {s : Sol} {z : Adder} {b c : Nat} (h : Cov s z b) (hc : c ≤ b) : Cov s z c := fun i j hi hj h0 hb => h i j hi hj h0 (by omega)

theorem Cov.sub {s s' : Sol} {z : Adder} {b : Nat} (h : Cov s z b) (hs : ∀ c ∈ s.cs, c ∈ s'.cs) : Cov s' z b := fun i j hi hj h0 hb => hs _ (h i j hi hj h0 hb)

/-- solvers whose clauses have grown -/
structure Ext (s s' : Sol) : Prop where
  n : s.n ≤ s'.n
  cs : ∀ c ∈ s.cs, c ∈ s'.cs

theorem Ext.refl (s : Sol) : Ext s s := ⟨Nat.le_refl _, fun _ h => h⟩

theorem Ext.trans {a b c : Sol} (h : Ext a b) (h' : Ext b c) : Ext a c := ⟨Nat.le_trans h.n h'.n, fun x hx => h'.cs x (h.cs x hx)⟩

theorem Ext.holds {a b : Sol} (h : Ext a b) {u : Nat → Bool} (hb : b.Holds u) : a.Holds u := fun c hc => hb c (h.cs c hc)

theorem Pre.ext {Z : List Adder} {s s' : Sol} (h : Pre Z s) (he : Ext s s') (hw : s'.WF) : Pre Z s' := ⟨hw, fun z hz => (h.wf z hz).mono he.n, fun z hz => (h.cov z hz).sub he.cs⟩

theorem Counts.ext {t : Tot} {s s' : Sol} {ins : List Nat} (h : Counts t s ins) (he : Ext s s') (hw : s'.WF) : Counts t s' ins :=
  ⟨h.pre.ext he hw, h.out.mono he.n, h.bins.mono he.n, h.tree⟩

/-- an encoding is built -/
theorem build_spec {t : Tot} {s : Sol} {lits : List Nat} {rhs : Nat} (h1 : rhs ≠ 0) (h2 : ¬ (t.inc = false ∧ rhs = lits.length)) (h3 : ¬ (rhs = lits.length ∧ t.join = false))
    (hp : Pre t.old s) (hb : Below s.n lits) :
    (t.build s lits rhs).1.has = true ∧ (t.build s lits rhs).1.join = true ∧ (t.build s lits rhs).1.inc = t.inc ∧ (t.build s lits rhs).1.ilits = lits ∧
    Ext s (t.build s lits rhs).2 ∧ Counts (t.build s lits rhs).1 (t.build s lits rhs).2 lits ∧ (∀ z ∈ t.old, z ∈ (t.build s lits rhs).1.zs) ∧
    (∀ z ∈ (t.build s lits rhs).1.zs, z ∈ t.old ∨ z.rhs = rhs) ∧
    (∀ u : Nat → Bool, s.Holds u → (∀ z ∈ t.old, Full u z) → ∃ u' : Nat → Bool, (∀ x < s.n, u' x = u x) ∧ (t.build s lits rhs).2.Holds u' ∧ Canon u' (t.build s lits rhs).1 lits) := by
  unfold Tot.build
  rw [if_neg h1, if_neg h2, if_neg h3]
  dsimp only
  obtain ⟨o, ho⟩ : ∃ o, (s.freshN lits.length).1 = o := ⟨_, rfl⟩
  obtain ⟨s1, hs1⟩ : ∃ s1, (s.freshN lits.length).2 = s1 := ⟨_, rfl⟩
  rw [ho, hs1]
  have n1 : s1.n = s.n + lits.length := by rw [← hs1]; rfl
  have c1 : s1.cs = s.cs := by rw [← hs1]; rfl
  have lo : o.length = lits.length := by rw [← ho, length_freshN]
  have bo : Below s1.n o := by rw [n1, ← ho]; exact below_freshN s _
  have br : Below s1.n lits.reverse := fun l hl => by rw [n1]; exact Nat.lt_of_lt_of_le (hb l (List.mem_reverse.1 hl)) (Nat.le_add_right _ _)
  have T := toCnf_spec rhs (lits.length + 1) s1 lits.reverse o (by omega) (by rw [lo, List.length_reverse]; exact Nat.le_refl _) bo br
  rw [show lits.reverse.take o.length = lits.reverse by rw [lo, ← List.length_reverse, List.take_length]] at T
  obtain ⟨r, hr⟩ : ∃ r, toCnf rhs (lits.length + 1) s1 lits.reverse o = r := ⟨_, rfl⟩
  rw [hr] at T ⊢
  have he : Ext s r.1 := ⟨by have := T.mono; omega, fun c hc => (T.cs c).2 (.inl (by rw [c1]; exact hc))⟩
  have hw : r.1.WF := by
    intro c hc l hl
    rcases (T.cs c).1 hc with h | ⟨z, hz, i, j, hi, hj, h0, _, rfl⟩
    · rw [c1] at h
      exact Nat.lt_of_lt_of_le (hp.swf c h l hl) he.n
    · have := T.wf z hz
      exact below_adderCl this.l this.r this.o this.len hi hj h0 l hl
  refine ⟨rfl, rfl, rfl, rfl, he, ⟨⟨hw, ?_, ?_⟩, ?_, hb.mono he.n, lits.reverse, ?_, List.reverse_perm _⟩, ?_, ?_, ?_⟩
  · intro z hz
    rcases List.mem_append.1 hz with hz | hz
    · exact (hp.wf z hz).mono he.n
    · exact T.wf z hz
  · intro z hz
    rcases List.mem_append.1 hz with hz | hz
    · exact (hp.cov z hz).sub he.cs
    · intro i j hi hj h0 hb
      rw [T.bound z hz] at hb
      exact (T.cs _).2 (.inr ⟨z, hz, i, j, hi, hj, h0, hb, rfl⟩)
  · exact bo.mono T.mono
  · exact T.cnt.mono fun z hz => List.mem_append_right _ hz
  · exact fun z hz => List.mem_append_left _ hz
  · intro z hz
    rcases List.mem_append.1 hz with hz | hz
    · exact .inl hz
    · exact .inr (T.bound z hz)
  · intro u hu hf
    have x1 : Exact (setCount u s.n lits.length lits) o lits := by rw [← ho]; exact exact_setCount rfl hb
    obtain ⟨u', g1, g2⟩ := T.full _ (x1.perm (List.reverse_perm _).symm)
    have g3 : ∀ x < s.n, u' x = u x := fun x hx => by rw [g1 x (by omega), setCount_old hx]
    have f' : ∀ z ∈ t.old, Full u' z := fun z hz => (hf z hz).congr (hp.wf z hz) fun x hx => (g3 x hx).symm
    refine ⟨u', g3, ?_, ⟨?_, ?_⟩⟩
    · intro c hc
      rcases (T.cs c).1 hc with h | ⟨z, hz, i, j, hi, hj, h0, _, rfl⟩
      · rw [c1] at h
        exact (Sol.holds_congr hp.swf g3).2 hu c h
      · exact g2 z hz i j hi hj h0
    · intro z hz
      rcases List.mem_append.1 hz with hz | hz
      · exact f' z hz
      · exact g2 z hz
    · exact x1.congr (fun l hl => (g1 _ (bo l hl)).symm) (fun l hl => (g1 _ (by rw [n1]; exact Nat.lt_of_lt_of_le (hb l hl) (Nat.le_add_right _ _))).symm)

theorem Cnt.bump {Z : List Adder} {rhs : Nat} {o ins : List Nat} (c : Cnt Z o ins) : Cnt (Z.map fun z => { z with rhs := rhs }) o ins := by
  induction c with
  | nil => exact .nil
  | leaf x => exact .leaf x
  | @node z li ri hz hl _ _ ih1 ih2 => exact Cnt.node (z := { z with rhs := rhs }) (List.mem_map.2 ⟨z, hz, rfl⟩) hl ih1 ih2

/-- clauses are added up to a new bound -/
theorem incremental_spec {t : Tot} {s : Sol} {ins : List Nat} (rhs : Nat) (h : Counts t s ins) :
    Ext s (t.incremental s rhs).2 ∧ (t.incremental s rhs).2.n = s.n ∧ Counts (t.incremental s rhs).1 (t.incremental s rhs).2 ins ∧
    (∀ z ∈ (t.incremental s rhs).1.zs, z.rhs = rhs) ∧ (∀ u : Nat → Bool, s.Holds u → Canon u t ins → (t.incremental s rhs).2.Holds u ∧ Canon u (t.incremental s rhs).1 ins) := by
  have hm : ∀ c, c ∈ (t.incremental s rhs).2.cs ↔ (∃ z ∈ t.zs, ∃ i j, i ≤ z.l.length ∧ j ≤ z.r.length ∧ i + j ≠ 0 ∧ (i + j ≤ rhs + 1 ∧ ¬ i + j ≤ z.rhs + 1) ∧ c = adderCl z.l z.r z.o i j) ∨
      c ∈ s.cs := by
    intro c
    show c ∈ _ ++ s.cs ↔ _
    rw [List.mem_append, List.mem_flatMap]
    simp only [mem_adderAll, Bool.and_eq_true, decide_eq_true_eq, Bool.not_eq_true', decide_eq_false_iff_not]
  have he : Ext s (t.incremental s rhs).2 := ⟨Nat.le_refl _, fun c hc => (hm c).2 (.inr hc)⟩
  refine ⟨he, rfl, ⟨⟨?_, ?_, ?_⟩, h.out, h.bins, ?_⟩, ?_, ?_⟩
  · intro c hc l hl
    rcases (hm c).1 hc with ⟨z, hz, i, j, hi, hj, h0, _, rfl⟩ | hc
    · have := h.pre.wf z hz
      exact below_adderCl this.l this.r this.o this.len hi hj h0 l hl
    · exact h.pre.swf c hc l hl
  · intro z hz
    obtain ⟨y, hy, rfl⟩ := List.mem_map.1 hz
    have := h.pre.wf y hy
    exact ⟨this.l, this.r, this.o, this.len⟩
  · intro z hz
    obtain ⟨y, hy, rfl⟩ := List.mem_map.1 hz
    intro i j hi hj h0 hb
    by_cases hy' : i + j ≤ y.rhs + 1
    · exact he.cs _ (h.pre.cov y hy i j hi hj h0 hy')
    · exact (hm _).2 (.inl ⟨y, hy, i, j, hi, hj, h0, ⟨hb, hy'⟩, rfl⟩)
  · obtain ⟨ls, h1, h2⟩ := h.tree
    exact ⟨ls, h1.bump, h2⟩
  · intro z hz
    obtain ⟨y, hy, rfl⟩ := List.mem_map.1 hz
    rfl
  · intro u hu hc
    refine ⟨fun c hcm => ?_, ⟨fun z hz => ?_, hc.exact⟩⟩
    · rcases (hm c).1 hcm with ⟨z, hz, i, j, hi, hj, h0, _, rfl⟩ | hcm
      · exact hc.full z hz i j hi hj h0
      · exact hu c hcm
    · obtain ⟨y, hy, rfl⟩ := List.mem_map.1 hz
      exact hc.full y hy

/-- with a bound that the clauses cover, the negated outputs from the bound on give the constraint -/
theorem Counts.le {t : Tot} {s : Sol} {ins : List Nat} (h : Counts t s ins) {b : Nat} (hb : ∀ z ∈ t.zs, Cov s z b) {u : Nat → Bool} (hu : s.Holds u)
    (ho : ∀ l ∈ t.out.drop b, litVal u l = false) : cnt u ins ≤ b := by
  obtain ⟨ls, h1, h2⟩ := h.tree
  refine Classical.byContradiction fun hlt => ?_
  have hc : b + 1 ≤ cnt u ls := by rw [cnt_perm h2]; omega
  have := h1.sound hb hu (b + 1) hc (by omega) (Nat.le_refl _)
  rw [Nat.add_sub_cancel] at this
  have hl : b < t.out.length := by have := cnt_le u ls; rw [← h1.length] at this; omega
  have e : t.out.getD b 0 = t.out[b] := by simp [hl]
  rw [e, ho _ (List.mem_iff_getElem.2 ⟨0, by rw [List.length_drop]; omega, by simp⟩)] at this
  cases this

/-- exact outputs from the bound on are false if and only if the constraint holds -/
theorem Canon.le {u : Nat → Bool} {t : Tot} {ins : List Nat} (h : Canon u t ins) {b : Nat} (hb : cnt u ins ≤ b) : ∀ l ∈ t.out.drop b, litVal u l = false := by
  intro l hl
  obtain ⟨i, hi, rfl⟩ := List.mem_iff_getElem.1 hl
  rw [List.length_drop] at hi
  rw [List.getElem_drop]
  have := h.exact.2 (b + i) (by omega)
  have e : t.out.getD (b + i) 0 = t.out[b + i] := by simp [show b + i < t.out.length by omega]
  rw [e] at this
  rw [this]; exact decide_eq_false (by omega)

theorem units_holds {u : Nat → Bool} {ls : List Nat} : (∀ c ∈ ls.map fun l => [neg l], clauseVal u c = true) ↔ ∀ l ∈ ls, litVal u l = false := by
  constructor
  · intro h l hl
    obtain ⟨x, hx, hv⟩ := clauseVal_iff.1 (h [neg l] (List.mem_map.2 ⟨l, hl, rfl⟩))
    rw [List.mem_singleton.1 hx, litVal_neg] at hv
    simpa using hv
  · intro h c hc
    obtain ⟨l, hl, rfl⟩ := List.mem_map.1 hc
    exact clauseVal_iff.2 ⟨neg l, List.mem_singleton.2 rfl, by rw [litVal_neg, h l hl]; rfl⟩

theorem units_wf {s : Sol} (hw : s.WF) {ls : List Nat} (hb : Below s.n ls) : (s.addAll (ls.map fun l => [neg l])).WF := by
  intro c hc l hl
  rcases List.mem_append.1 hc with hc | hc
  · obtain ⟨x, hx, rfl⟩ := List.mem_map.1 hc
    rw [List.mem_singleton.1 hl, neg_div]; exact hb x hx
  · exact hw c hc l hl

theorem addAll_ext (s : Sol) (cs : List (List Nat)) : Ext s (s.addAll cs) := ⟨Nat.le_refl _, fun _ hc => List.mem_append_right _ hc⟩

/-- a smaller bound on the solver (strategy none) -/
theorem update_none_spec {t : Tot} {s : Sol} {ins : List Nat} {rhs : Nat} (hi : t.inc = false) (h : Counts t s ins) (hb : ∀ z ∈ t.zs, rhs ≤ z.rhs) :
    ∃ s', t.update s rhs = some (t, s', []) ∧ Ext s s' ∧ s'.n = s.n ∧ Counts t s' ins ∧ (∀ u : Nat → Bool, s'.Holds u → cnt u ins ≤ rhs) ∧
    ∀ u : Nat → Bool, s.Holds u → Canon u t ins → cnt u ins ≤ rhs → s'.Holds u := by
  unfold Tot.update
  rw [if_pos hi]
  refine ⟨_, rfl, addAll_ext _ _, rfl, h.ext (addAll_ext _ _) (units_wf h.pre.swf fun l hl => h.out l (List.mem_of_mem_drop hl)), fun u hu => ?_, fun u hu hc hle => ?_⟩
  · obtain ⟨h1, h2⟩ := Sol.holds_addAll.1 hu
    exact h.le (fun z hz => (h.pre.cov z hz).le (hb z hz)) h2 (units_holds.1 h1)
  · exact Sol.holds_addAll.2 ⟨units_holds.2 (hc.le hle), hu⟩

/-- encoder.go:30 `encodeCardinality` (strategy none) -/
theorem encode_spec {t : Tot} {s : Sol} {lits : List Nat} {rhs : Nat} (hi : t.inc = false) (hw : s.WF) (hb : Below s.n lits) :
    ∃ t' s', t.encode s lits rhs = some (t', s') ∧ Ext s s' ∧ s'.WF ∧ t'.inc = false ∧ (∀ u : Nat → Bool, s'.Holds u → cnt u lits ≤ rhs) ∧
    (t'.has = true → Counts t' s' lits ∧ ∀ z ∈ t'.zs, z.rhs = rhs) ∧
    ∀ u : Nat → Bool, s.Holds u → cnt u lits ≤ rhs → ∃ u' : Nat → Bool, (∀ x < s.n, u' x = u x) ∧ s'.Holds u' ∧ (t'.has = true → Canon u' t' lits) := by
  unfold Tot.encode
  by_cases h1 : rhs = 0
  · subst h1
    unfold Tot.build
    rw [if_pos rfl]
    dsimp only
    rw [if_neg (by simp)]
    refine ⟨_, _, rfl, addAll_ext _ _, units_wf hw hb, hi, fun u hu => ?_, fun h => (nomatch h), fun u hu hc => ⟨u, fun _ _ => rfl, ?_, fun h => (nomatch h)⟩⟩
    · rw [cnt_eq_zero.2 (units_holds.1 (Sol.holds_addAll.1 hu).1)]; exact Nat.le_refl _
    · exact Sol.holds_addAll.2 ⟨units_holds.2 (cnt_eq_zero.1 (by omega)), hu⟩
  · by_cases h2 : rhs = lits.length
    · have hb' : t.build s lits rhs = ({ t with out := [], has := false }, s) := by unfold Tot.build; rw [if_neg h1, if_pos ⟨hi, h2⟩]
      rw [hb']
      dsimp only
      rw [if_neg (by simp)]
      exact ⟨_, _, rfl, Ext.refl _, hw, hi, fun u _ => by rw [h2]; exact cnt_le u lits, fun h => (nomatch h), fun u hu _ => ⟨u, fun _ _ => rfl, hu, fun h => (nomatch h)⟩⟩
    · have ho : t.old = [] := by unfold Tot.old; rw [hi]; rfl
      obtain ⟨b1, b2, b3, _, b4, b5, b6, b7, b8⟩ := build_spec (t := t) (s := s) (lits := lits) h1 (fun h => h2 h.2) (fun h => h2 h.1)
        (by rw [ho]; exact ⟨hw, fun z hz => (nomatch hz), fun z hz => (nomatch hz)⟩) hb
      obtain ⟨b, hbb⟩ : ∃ b, t.build s lits rhs = b := ⟨_, rfl⟩
      rw [hbb] at b1 b2 b3 b4 b5 b6 b7 b8 ⊢
      dsimp only
      rw [if_pos b1]
      have hz : ∀ z ∈ b.1.zs, z.rhs = rhs := fun z hz => (b7 z hz).elim (fun h => by rw [ho] at h; cases h) id
      obtain ⟨s', e1, e2, e3, e4, e5, e6⟩ := update_none_spec (rhs := rhs) (b3.trans hi) b5 fun z h => by rw [hz z h]; exact Nat.le_refl _
      rw [e1]
      refine ⟨_, _, rfl, b4.trans e2, e4.pre.swf, b3.trans hi, e5, fun _ => ⟨e4, hz⟩, fun u hu hc => ?_⟩
      obtain ⟨u', g1, g2, g3⟩ := b8 u hu fun z h => by rw [ho] at h; cases h
      exact ⟨u', g1, e6 u' g2 g3 (by rw [cnt_congr fun l hl => g1 _ (hb l hl)]; exact hc), fun _ => g3⟩

/-- a new bound in the assumptions (strategy iterative) -/
theorem update_inc_spec {t : Tot} {s : Sol} {ins : List Nat} {rhs : Nat} (hi : t.inc = true) (h : Counts t s ins) (hl : rhs ≤ ins.length) :
    ∃ t' s', t.update s rhs = some (t', s', (t.out.drop rhs).map neg) ∧ Ext s s' ∧ s'.n = s.n ∧ Counts t' s' ins ∧ t'.inc = true ∧ t'.join = t.join ∧ t'.has = t.has ∧ t'.out = t.out ∧ t'.ilits = t.ilits ∧
    (∀ z ∈ t'.zs, z.rhs = rhs) ∧ ∀ u : Nat → Bool, s.Holds u → Canon u t ins → s'.Holds u ∧ Canon u t' ins := by
  unfold Tot.update
  rw [if_neg (by rw [hi]; simp), if_neg (by rw [h.length]; omega)]
  obtain ⟨h1, h2, h3, h4, h5⟩ := incremental_spec rhs h
  exact ⟨_, _, rfl, h1, h2, h3, hi, rfl, rfl, rfl, rfl, h4, h5⟩

/-- the literals of a join are counted too -/
theorem join_spec {t : Tot} {s : Sol} {ins lits : List Nat} {rhs : Nat} (hi : t.inc = true) (hj : t.join = true) (h : Counts t s ins) (hb : Below s.n lits) (h0 : lits ≠ []) (hr : rhs ≠ 0) :
    ∃ t' s', t.joinLits s lits rhs = (t', s') ∧ Ext s s' ∧ Counts t' s' (ins ++ lits) ∧ t'.inc = true ∧ t'.join = true ∧ (t.has = true → t'.has = true) ∧
    ∀ u : Nat → Bool, s.Holds u → Canon u t ins → ∃ u' : Nat → Bool, (∀ x < s.n, u' x = u x) ∧ s'.Holds u' ∧ Canon u' t' (ins ++ lits) := by
  have ho : t.old = t.zs := by unfold Tot.old; rw [hi]; rfl
  unfold Tot.joinLits
  dsimp only
  -- the right operand
  have B : ∃ b : Tot × Sol, (if 1 < lits.length then t.build s lits (min rhs lits.length) else ({ t with out := lits }, s)) = b ∧ Ext s b.2 ∧ Counts b.1 b.2 lits ∧ (∀ z ∈ t.zs, z ∈ b.1.zs) ∧
      b.1.inc = true ∧ b.1.join = true ∧ (t.has = true → b.1.has = true) ∧
      ∀ u : Nat → Bool, s.Holds u → (∀ z ∈ t.zs, Full u z) → ∃ u' : Nat → Bool, (∀ x < s.n, u' x = u x) ∧ b.2.Holds u' ∧ Canon u' b.1 lits := by
    by_cases hlt : 1 < lits.length
    · rw [if_pos hlt]
      obtain ⟨b1, b2, b3, _, b4, b5, b6, b7, b8⟩ := build_spec (t := t) (s := s) (lits := lits) (rhs := min rhs lits.length) (by omega) (fun h => by rw [hi] at h; exact (nomatch h.1))
        (fun h => by rw [hj] at h; exact (nomatch h.2)) (by rw [ho]; exact h.pre) hb
      rw [ho] at b6 b8
      exact ⟨_, rfl, b4, b5, b6, b3.trans hi, b2, fun _ => b1, b8⟩
    · rw [if_neg hlt]
      obtain ⟨x, rfl⟩ : ∃ x, lits = [x] := by
        cases lits with
        | nil => exact absurd rfl h0
        | cons x xs =>
          cases xs with
          | nil => exact ⟨x, rfl⟩
          | cons y ys => simp at hlt
      refine ⟨_, rfl, Ext.refl _, ⟨h.pre, hb, hb, [x], .leaf x, List.Perm.refl _⟩, fun z hz => hz, hi, hj, id, fun u hu hf => ⟨u, fun _ _ => rfl, hu, ⟨hf, Exact.single u x⟩⟩⟩
  obtain ⟨b, hbb, B1, B2, B3, B4, B5, B6, B7⟩ := B
  rw [hbb]
  obtain ⟨n, hn⟩ : ∃ n, t.out.length + b.1.out.length = n := ⟨_, rfl⟩
  rw [hn]
  obtain ⟨o, hoo⟩ : ∃ o, (b.2.freshN n).1 = o := ⟨_, rfl⟩
  obtain ⟨s1, hs1⟩ : ∃ s1, (b.2.freshN n).2 = s1 := ⟨_, rfl⟩
  rw [hoo, hs1]
  have n1 : s1.n = b.2.n + n := by rw [← hs1]; rfl
  have c1 : s1.cs = b.2.cs := by rw [← hs1]; rfl
  have lo : o.length = n := by rw [← hoo, length_freshN]
  have bo : Below s1.n o := by rw [n1, ← hoo]; exact below_freshN b.2 _
  have le1 : b.2.n ≤ s1.n := by omega
  have zwf : Adder.WF s1.n ⟨t.out, b.1.out, o, rhs⟩ := ⟨h.out.mono (Nat.le_trans B1.n le1), B2.out.mono le1, bo, (by omega : o.length = t.out.length + b.1.out.length)⟩
  have hm : ∀ c, c ∈ (s1.addAll (adderAll t.out b.1.out o fun m => decide (m ≤ rhs + 1))).cs ↔
      (∃ i j, i ≤ t.out.length ∧ j ≤ b.1.out.length ∧ i + j ≠ 0 ∧ i + j ≤ rhs + 1 ∧ c = adderCl t.out b.1.out o i j) ∨ c ∈ b.2.cs := by
    intro c
    show c ∈ _ ++ s1.cs ↔ _
    rw [List.mem_append, c1, mem_adderAll]
    simp only [decide_eq_true_eq]
  have he2 : Ext b.2 (s1.addAll (adderAll t.out b.1.out o fun m => decide (m ≤ rhs + 1))) := ⟨le1, fun c hc => (hm c).2 (.inr hc)⟩
  have hw : (s1.addAll (adderAll t.out b.1.out o fun m => decide (m ≤ rhs + 1))).WF := by
    intro c hc l hl
    rcases (hm c).1 hc with ⟨i, j, hi, hj, h0, _, rfl⟩ | hc
    · exact below_adderCl zwf.l zwf.r zwf.o zwf.len hi hj h0 l hl
    · exact Nat.lt_of_lt_of_le (B2.pre.swf c hc l hl) le1
  have bins : Below b.2.n (ins ++ lits) := fun l hl => by
    rcases List.mem_append.1 hl with hl | hl
    · exact Nat.lt_of_lt_of_le (h.bins l hl) B1.n
    · exact Nat.lt_of_lt_of_le (hb l hl) B1.n
  have hlen : (ins ++ lits).length = n := by rw [List.length_append, ← h.length, ← B2.length, hn]
  refine ⟨_, _, rfl, B1.trans he2, ⟨⟨hw, ?_, ?_⟩, bo, bins.mono le1, ?_⟩, B4, B5, B6, ?_⟩
  · intro z hz
    rcases List.mem_append.1 hz with hz | hz
    · exact (B2.pre.wf z hz).mono le1
    · rw [List.mem_singleton.1 hz]; exact zwf
  · intro z hz
    rcases List.mem_append.1 hz with hz | hz
    · exact (B2.pre.cov z hz).sub he2.cs
    · rw [List.mem_singleton.1 hz]
      exact fun i j hi hj h0 hb => (hm _).2 (.inl ⟨i, j, hi, hj, h0, hb, rfl⟩)
  · obtain ⟨l1, p1, p2⟩ := h.tree
    obtain ⟨l2, p3, p4⟩ := B2.tree
    refine ⟨l1 ++ l2, Cnt.node (z := ⟨t.out, b.1.out, o, rhs⟩) (List.mem_append_right _ (List.mem_singleton.2 rfl)) zwf.len (p1.mono ?_) (p3.mono ?_), p2.append p4⟩
    · exact fun z hz => List.mem_append_left _ (B3 z hz)
    · exact fun z hz => List.mem_append_left _ hz
  · intro u hu hc
    obtain ⟨u1, g1, g2, g3⟩ := B7 u hu hc.full
    have g4 : Exact u1 t.out ins := hc.exact.congr (fun l hl => (g1 _ (h.out l hl)).symm) (fun l hl => (g1 _ (h.bins l hl)).symm)
    have x : Exact (setCount u1 b.2.n n (ins ++ lits)) o (ins ++ lits) := by rw [← hoo]; exact exact_setCount hlen bins
    have a : ∀ y < b.2.n, setCount u1 b.2.n n (ins ++ lits) y = u1 y := fun y hy => setCount_old hy
    have x1 := g4.congr (fun l hl => (a _ (Nat.lt_of_lt_of_le (h.out l hl) B1.n)).symm) (fun l hl => (a _ (bins l (List.mem_append_left _ hl))).symm)
    have x2 := g3.exact.congr (fun l hl => (a _ (B2.out l hl)).symm) (fun l hl => (a _ (bins l (List.mem_append_right _ hl))).symm)
    have hf : Full (setCount u1 b.2.n n (ins ++ lits)) ⟨t.out, b.1.out, o, rhs⟩ := full_of_exact x1 x2 x
    refine ⟨setCount u1 b.2.n n (ins ++ lits), fun y hy => by rw [a y (Nat.lt_of_lt_of_le hy B1.n), g1 y hy], ?_, ⟨?_, x⟩⟩
    · intro c hcm
      rcases (hm c).1 hcm with ⟨i, j, hi, hj, h0, _, rfl⟩ | hcm
      · exact hf i j hi hj h0
      · exact (Sol.holds_congr B2.pre.swf a).2 g2 c hcm
    · intro z hz
      rcases List.mem_append.1 hz with hz | hz
      · exact (g3.full z hz).congr (B2.pre.wf z hz) fun y hy => (a y hy).symm
      · rw [List.mem_singleton.1 hz]; exact hf

/-- the assumptions of a bound are the constraint -/
theorem asm_le {t : Tot} {s : Sol} {ins : List Nat} (h : Counts t s ins) {rhs : Nat} (hz : ∀ z ∈ t.zs, z.rhs = rhs) {u : Nat → Bool} (hu : s.Holds u)
    (ha : ∀ a ∈ (t.out.drop rhs).map neg, litVal u a = true) : cnt u ins ≤ rhs :=
  h.le (fun z hm => by have := h.pre.cov z hm; rw [hz z hm] at this; exact this) hu fun l hl => by
    have := ha (neg l) (List.mem_map.2 ⟨l, hl, rfl⟩)
    rw [litVal_neg] at this
    simpa using this

theorem le_asm {u : Nat → Bool} {t : Tot} {ins : List Nat} (h : Canon u t ins) {rhs : Nat} (hc : cnt u ins ≤ rhs) : ∀ a ∈ (t.out.drop rhs).map neg, litVal u a = true := by
  intro a ha
  obtain ⟨l, hl, rfl⟩ := List.mem_map.1 ha
  rw [litVal_neg, h.le hc l hl]; rfl

end Verif.MaxAlg
