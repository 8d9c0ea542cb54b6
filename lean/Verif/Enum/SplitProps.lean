import Verif.Enum.Split
import Mathlib.Data.Rat.Floor
import Mathlib.Data.List.Sort
import Mathlib.Tactic.Linarith
import Mathlib.Tactic.FieldSimp
import Mathlib.Tactic.NormNum
/-!
# Occurrences of variables, providers of split variables, strategies (C60)
-/
namespace Verif.Enum
open Verif
variable {α : Type} [LinearOrder α]

/-! ### Specification -/

/-- the variable is assigned at level 0 -/
def Core.Unit (c : Core α) (x : α) : Prop := ∃ i : Nat, c.names[i]? = some x ∧ c.level0[i]? = some true

open Classical in
/-- occurrences of a variable on the solver: those in clauses, and one more for a variable that is assigned at level 0 -/
noncomputable def Core.occ (c : Core α) (x : α) : Nat :=
  (if c.Unit x then 1 else 0) + c.clauses.flatten.countP fun l => decide (c.names[l / 2]? = some x)

/-- each name has one index, and each variable a level -/
structure Core.Wf (c : Core α) : Prop where
  nodup : c.names.Nodup
  len : c.level0.length = c.names.length

/-- the variables that are asked for -/
def Core.Asked (c : Core α) (rel : Option (List α)) (x : α) : Prop :=
  match rel with
  | none => x ∈ c.names
  | some vs => x ∈ vs

/-- the preference of the providers for given numbers of occurrences -/
def Before (o : α → Nat) (most : Bool) (x y : α) : Prop :=
  if most then o y < o x ∨ o x = o y ∧ y < x else o x < o y ∨ o x = o y ∧ x < y

/-! ### Maps -/

theorem lookup_append (m m' : List (α × Nat)) (x : α) : (m ++ m').lookup x = (m.lookup x).or (m'.lookup x) := by
  induction m with
  | nil => simp
  | cons e m ih =>
    obtain ⟨k, v⟩ := e
    by_cases h : x = k
    · subst h; simp
    · have : (x == k) = false := by simp [h]
      simp [List.lookup_cons, this, ih]

theorem lookup_none {m : List (α × Nat)} {x : α} : m.lookup x = none ↔ x ∉ m.map (·.1) := by
  induction m with
  | nil => simp
  | cons e m ih =>
    obtain ⟨k, v⟩ := e
    by_cases h : x = k
    · subst h; simp
    · have : (x == k) = false := by simp [h]
      simp [List.lookup_cons, this, ih, h]

theorem lookup_replace (m : List (α × Nat)) (k : α) (v : Nat) (x : α) :
    (m.map fun e => if e.1 = k then (k, v) else e).lookup x = if x = k then (if k ∈ m.map (·.1) then some v else none) else m.lookup x := by
  induction m with
  | nil => simp
  | cons e m ih =>
    obtain ⟨a, b⟩ := e
    rw [List.map_cons]
    by_cases ha : a = k
    · subst ha
      simp only [if_true, List.lookup_cons]
      by_cases h : x = a
      · subst h; simp
      · have : (x == a) = false := by simp [h]
        simp only [this]
        rw [ih]
        simp [h]
    · simp only [if_neg ha, List.lookup_cons]
      by_cases h : x = a
      · subst h
        have : (x == x) = true := by simp
        simp only [this]
        simp [ha]
      · have : (x == a) = false := by simp [h]
        simp only [this]
        rw [ih]
        have hka : ¬ k = a := fun e => ha e.symm
        simp only [List.map_cons, List.mem_cons, hka, false_or]

theorem lookup_put (m : List (α × Nat)) (k : α) (v : Nat) (x : α) : (put m k v).lookup x = if x = k then some v else m.lookup x := by
  have hany : m.any (·.1 == k) = true ↔ k ∈ m.map (·.1) := by
    simp [List.any_eq_true]
  unfold put
  by_cases h : k ∈ m.map (·.1)
  · rw [if_pos (hany.2 h), lookup_replace, if_pos h]
  · rw [if_neg (fun h' => h (hany.1 h')), lookup_append]
    by_cases hx : x = k
    · subst hx
      rw [lookup_none.2 h]; simp
    · have : (x == k) = false := by simp [hx]
      rw [if_neg hx, List.lookup_cons, this]
      simp

theorem put_keys (m : List (α × Nat)) (k : α) (v : Nat) : (put m k v).map (·.1) = if k ∈ m.map (·.1) then m.map (·.1) else m.map (·.1) ++ [k] := by
  have hany : m.any (·.1 == k) = true ↔ k ∈ m.map (·.1) := by
    simp [List.any_eq_true]
  unfold put
  by_cases h : k ∈ m.map (·.1)
  · rw [if_pos (hany.2 h), if_pos h, List.map_map]
    refine List.map_congr_left fun e _ => ?_
    simp only [Function.comp]
    split
    · rename_i h; exact h.symm
    · rfl
  · rw [if_neg (fun h' => h (hany.1 h')), if_neg h]; simp

theorem put_nodup {m : List (α × Nat)} (h : (m.map (·.1)).Nodup) (k : α) (v : Nat) : ((put m k v).map (·.1)).Nodup := by
  rw [put_keys]
  split
  · exact h
  · rename_i hk
    rw [List.nodup_append]
    refine ⟨h, by simp, ?_⟩
    rintro a ha b hb rfl
    rw [List.mem_singleton] at hb
    exact hk (hb ▸ ha)

/-! ### `VarOccurrences` -/

theorem zeros_lookup (vs : List α) (m : List (α × Nat)) (x : α) :
    (vs.foldl (fun m x => put m x 0) m).lookup x = if x ∈ vs then some 0 else m.lookup x := by
  induction vs generalizing m with
  | nil => simp
  | cons y vs ih =>
    rw [List.foldl_cons, ih, lookup_put]
    by_cases h : x ∈ vs
    · simp [h]
    · by_cases h' : x = y <;> simp [h, h']

theorem zeros_nodup (vs : List α) {m : List (α × Nat)} (h : (m.map (·.1)).Nodup) : ((vs.foldl (fun m x => put m x 0) m).map (·.1)).Nodup := by
  induction vs generalizing m with
  | nil => exact h
  | cons y vs ih => exact ih (put_nodup h y 0)

theorem levels_lookup (P : α → Bool) (L : List (α × Bool)) (hL : (L.map (·.1)).Nodup) (m : List (α × Nat)) (x : α) :
    (L.foldl (fun m nl => if P nl.1 then put m nl.1 (if nl.2 then 1 else 0) else m) m).lookup x =
      if P x = true ∧ x ∈ L.map (·.1) then some (if (x, true) ∈ L then 1 else 0) else m.lookup x := by
  induction L generalizing m with
  | nil => simp
  | cons e L ih =>
    obtain ⟨y, b⟩ := e
    rw [List.map_cons, List.nodup_cons] at hL
    rw [List.foldl_cons, ih hL.2]
    have hs : ∀ v, (if P y = true then put m y v else m).lookup x = if P y = true ∧ x = y then some v else m.lookup x := by
      intro v
      by_cases hy : P y = true
      · simp only [hy, if_true, true_and, lookup_put]
      · simp only [hy, if_false, false_and]
        simp
    simp only [hs]
    by_cases hxy : x = y
    · subst hxy
      have hx : x ∉ L.map (·.1) := hL.1
      have hn : (x, true) ∉ L := fun h => hx (List.mem_map.2 ⟨_, h, rfl⟩)
      have h1 : ¬ (P x = true ∧ x ∈ L.map (·.1)) := fun h => hx h.2
      rw [if_neg h1]
      by_cases hP : P x = true
      · cases b <;> simp [hP, hn]
      · simp [hP]
    · have h1 : ¬ (P y = true ∧ x = y) := fun h => hxy h.2
      rw [if_neg h1]
      have h2 : (P x = true ∧ x ∈ ((y, b) :: L).map (·.1)) ↔ (P x = true ∧ x ∈ L.map (·.1)) := by
        rw [List.map_cons, List.mem_cons]; simp only [hxy, false_or]
      have h3 : (x, true) ∈ (y, b) :: L ↔ (x, true) ∈ L := by
        rw [List.mem_cons]; simp only [Prod.mk.injEq, hxy, false_and, false_or]
      simp only [h2, h3]

theorem levels_nodup (P : α → Bool) (L : List (α × Bool)) {m : List (α × Nat)} (h : (m.map (·.1)).Nodup) :
    ((L.foldl (fun m nl => if P nl.1 then put m nl.1 (if nl.2 then 1 else 0) else m) m).map (·.1)).Nodup := by
  induction L generalizing m with
  | nil => exact h
  | cons e L ih =>
    rw [List.foldl_cons]
    refine ih ?_
    split
    · exact put_nodup h _ _
    · exact h

theorem unit_iff (c : Core α) (x : α) : (x, true) ∈ c.names.zip c.level0 ↔ c.Unit x := by
  unfold Core.Unit
  rw [List.mem_iff_getElem?]
  refine exists_congr fun i => ?_
  rw [List.getElem?_zip_eq_some]

open Classical in
theorem initMap_lookup {c : Core α} (hc : c.Wf) (rel : Option (List α)) (x : α) :
    (initMap c rel).lookup x = if c.Asked rel x then some (if c.Unit x then 1 else 0) else none := by
  have hz : (c.names.zip c.level0).map (·.1) = c.names := List.map_fst_zip (by rw [hc.len])
  have hnu : x ∉ c.names → ¬ c.Unit x := by
    rintro hn ⟨i, hi, -⟩
    exact hn (List.mem_of_getElem? hi)
  cases rel with
  | none =>
    unfold initMap Core.Asked
    simp only
    have := levels_lookup (fun _ => true) (c.names.zip c.level0) (by rw [hz]; exact hc.nodup) [] x
    simp only [if_true, true_and, hz, unit_iff, List.lookup_nil] at this
    simp only [if_true]
    rw [this]
    by_cases h : x ∈ c.names <;> simp [h]
  | some vs =>
    unfold initMap Core.Asked
    simp only
    have := levels_lookup (fun y => vs.contains y) (c.names.zip c.level0) (by rw [hz]; exact hc.nodup)
      (vs.foldl (fun m x => put m x 0) []) x
    rw [this, hz, zeros_lookup]
    simp only [List.contains_iff_mem, unit_iff]
    by_cases h : x ∈ vs
    · by_cases hn : x ∈ c.names
      · simp [h, hn]
      · simp [h, hn, hnu hn]
    · simp [h]

theorem initMap_nodup (c : Core α) (rel : Option (List α)) : ((initMap c rel).map (·.1)).Nodup := by
  cases rel with
  | none => exact levels_nodup (fun _ => true) _ List.nodup_nil
  | some vs => exact levels_nodup (fun y => vs.contains y) _ (zeros_nodup vs List.nodup_nil)

theorem countLit_lookup (c : Core α) (m : List (α × Nat)) (l : Nat) (x : α) :
    (countLit c m l).lookup x = (m.lookup x).map (· + if c.names[l / 2]? = some x then 1 else 0) := by
  unfold countLit
  split
  · rename_i h; simp [h]
  · rename_i y h
    split
    · rename_i hn
      by_cases hxy : y = x
      · subst hxy; rw [hn]; rfl
      · simp [h, hxy]
    · rename_i n hn
      rw [lookup_put]
      by_cases hxy : x = y
      · subst hxy; rw [if_pos rfl, hn]; simp [h]
      · rw [if_neg hxy]
        have : ¬ y = x := fun e => hxy e.symm
        simp [h, this]

theorem countLit_nodup (c : Core α) {m : List (α × Nat)} (h : (m.map (·.1)).Nodup) (l : Nat) : ((countLit c m l).map (·.1)).Nodup := by
  unfold countLit
  split
  · exact h
  · split
    · exact h
    · exact put_nodup h _ _

theorem countLits_lookup (c : Core α) (ls : List Nat) (m : List (α × Nat)) (x : α) :
    (ls.foldl (countLit c) m).lookup x = (m.lookup x).map (· + ls.countP fun l => decide (c.names[l / 2]? = some x)) := by
  induction ls generalizing m with
  | nil => simp
  | cons l ls ih =>
    rw [List.foldl_cons, ih, countLit_lookup, Option.map_map]
    congr 1
    funext n
    simp only [Function.comp, List.countP_cons, decide_eq_true_eq]
    omega

theorem foldl_flatten {β γ : Type} (f : β → γ → β) (L : List (List γ)) (m : β) : L.foldl (fun m l => l.foldl f m) m = L.flatten.foldl f m := by
  induction L generalizing m with
  | nil => rfl
  | cons l L ih => rw [List.foldl_cons, ih, List.flatten_cons, List.foldl_append]

open Classical in
/-- C60: `VarOccurrences` gives for each variable that is asked for, and for no other, the number of its occurrences. -/
theorem C60_varOccurrences {c : Core α} (hc : c.Wf) (rel : Option (List α)) (x : α) :
    (varOccs c rel).lookup x = if c.Asked rel x then some (c.occ x) else none := by
  unfold varOccs
  rw [foldl_flatten, countLits_lookup, initMap_lookup hc]
  by_cases h : c.Asked rel x
  · simp [h, Core.occ]
  · simp [h]

theorem varOccs_nodup (c : Core α) (rel : Option (List α)) : ((varOccs c rel).map (·.1)).Nodup := by
  unfold varOccs
  rw [foldl_flatten]
  have : ∀ (ls : List Nat) (m : List (α × Nat)), (m.map (·.1)).Nodup → ((ls.foldl (countLit c) m).map (·.1)).Nodup := by
    intro ls
    induction ls with
    | nil => intro m h; exact h
    | cons l ls ih => intro m h; exact ih _ (countLit_nodup c h l)
  exact this _ _ (initMap_nodup c rel)

theorem varOccs_keys {c : Core α} (hc : c.Wf) (rel : Option (List α)) (x : α) : x ∈ (varOccs c rel).map (·.1) ↔ c.Asked rel x := by
  have h1 := C60_varOccurrences hc rel x
  have h2 := lookup_none (m := varOccs c rel) (x := x)
  constructor
  · intro h
    by_contra hn
    rw [if_neg hn] at h1
    exact h2.1 h1 h
  · intro h
    by_contra hn
    rw [if_pos h, h2.2 hn] at h1
    cases h1

/-! ### Rounding -/

/-- powers of two in `round53` -/
def pow2 (e : Int) : Rat := if 0 ≤ e then ((2 ^ e.toNat : Nat) : Rat) else 1 / ((2 ^ (-e).toNat : Nat) : Rat)

theorem round53_expo {q : Rat} (h0 : 0 < q) : ∃ e : Int, (∀ p : Nat, q < 2 ^ p → e < p) ∧
    Order.round53 q = ((if q / pow2 (e - 52) - ((q / pow2 (e - 52)).floor : Rat) < 1 / 2 then (q / pow2 (e - 52)).floor
      else if 1 / 2 < q / pow2 (e - 52) - ((q / pow2 (e - 52)).floor : Rat) then (q / pow2 (e - 52)).floor + 1
      else if (q / pow2 (e - 52)).floor % 2 = 0 then (q / pow2 (e - 52)).floor else (q / pow2 (e - 52)).floor + 1 : Int) : Rat) * pow2 (e - 52) := by
  refine ⟨if pow2 ((Nat.log2 q.num.toNat : Int) - (Nat.log2 q.den : Int)) ≤ q then (Nat.log2 q.num.toNat : Int) - (Nat.log2 q.den : Int)
    else (Nat.log2 q.num.toNat : Int) - (Nat.log2 q.den : Int) - 1, ?_, ?_⟩
  · intro p hp
    have hnum : 0 < q.num := Rat.num_pos.2 h0
    have ha : (q.num.toNat : Int) = q.num := Int.toNat_of_nonneg hnum.le
    have ha0 : q.num.toNat ≠ 0 := by omega
    have hd0 : 0 < q.den := q.den_pos
    have hq : q * (q.den : Rat) = (q.num.toNat : Rat) := by
      rw [Rat.mul_den_eq_num]
      exact_mod_cast ha.symm
    have hlt : q.num.toNat < 2 ^ p * q.den := by
      have : (q.num.toNat : Rat) < ((2 ^ p * q.den : Nat) : Rat) := by
        rw [← hq]
        push_cast
        exact mul_lt_mul_of_pos_right hp (by exact_mod_cast hd0)
      exact_mod_cast this
    have h1 := Nat.log2_self_le ha0
    have h2 := Nat.lt_log2_self (n := q.den)
    have h3 : 2 ^ q.num.toNat.log2 < 2 ^ (p + (q.den.log2 + 1)) := by
      rw [pow_add]
      calc _ ≤ _ := h1
        _ < _ := hlt
        _ ≤ _ := Nat.mul_le_mul_left _ h2.le
    have h4 : q.num.toNat.log2 < p + (q.den.log2 + 1) := (Nat.pow_lt_pow_iff_right (by norm_num)).1 h3
    split
    · rename_i hle
      by_contra hge
      have he : (q.num.toNat.log2 : Int) - (q.den.log2 : Int) = p := by omega
      rw [he] at hle
      unfold pow2 at hle
      simp at hle
      exact absurd hp (not_lt.2 hle)
    · omega
  · unfold Order.round53
    rw [if_neg (not_le.2 h0)]
    rfl

/-- a positive number below `2 ^ 53` is rounded to a multiple of some `1 / 2 ^ k`, between the integers around its quotient -/
theorem round53_spec {q : Rat} (h0 : 0 < q) (h : q < 2 ^ 53) : ∃ (k : Nat) (z : Int), Order.round53 q = (z : Rat) / 2 ^ k ∧
    (∀ N : Int, q * 2 ^ k ≤ N → z ≤ N) ∧ (∀ N : Int, (N : Rat) ≤ q * 2 ^ k → N ≤ z) ∧ (q < 2 ^ 52 → 1 ≤ k) := by
  obtain ⟨e, he, hr⟩ := round53_expo h0
  have h53 := he 53 h
  have hu : pow2 (e - 52) = 1 / 2 ^ (52 - e).toNat := by
    unfold pow2
    split
    · have : e = 52 := by omega
      subst this
      norm_num
    · rw [show -(e - 52) = 52 - e by omega]
      push_cast
      rfl
  rw [hu] at hr
  have ht : q / (1 / 2 ^ (52 - e).toNat) = q * 2 ^ (52 - e).toNat := by rw [div_div_eq_mul_div, div_one]
  rw [ht] at hr
  refine ⟨(52 - e).toNat, _, hr.trans (by rw [mul_one_div]), ?_, ?_, ?_⟩
  · intro N hN
    have h1 : (q * 2 ^ (52 - e).toNat).floor ≤ N := by
      have := Rat.floor_le (q * 2 ^ (52 - e).toNat)
      have h2 : ((q * 2 ^ (52 - e).toNat).floor : Rat) ≤ N := this.trans hN
      exact_mod_cast h2
    have h3 : (q * 2 ^ (52 - e).toNat).floor = N → q * 2 ^ (52 - e).toNat - ((q * 2 ^ (52 - e).toNat).floor : Rat) < 1 / 2 := by
      intro h3
      rw [h3]
      linarith
    split
    · exact h1
    · rename_i hn
      have : (q * 2 ^ (52 - e).toNat).floor ≠ N := fun h => hn (h3 h)
      split
      · omega
      · split <;> omega
  · intro N hN
    have h1 : N ≤ (q * 2 ^ (52 - e).toNat).floor := Rat.le_floor_iff.2 hN
    split
    · exact h1
    · split
      · omega
      · split <;> omega
  · intro h52
    have := he 52 h52
    omega

/-- rounding does not lead beyond an integer -/
theorem round53_le {q : Rat} (h0 : 0 ≤ q) {n : Nat} (hn : n < 2 ^ 53) (h : q ≤ n) : (Order.round53 q).ceil ≤ n := by
  have hN : (n : Rat) < 2 ^ 53 := by exact_mod_cast hn
  rw [Rat.ceil_le_iff]
  rcases h0.lt_or_eq with h0 | h0
  · obtain ⟨k, z, h1, h2, -, -⟩ := round53_spec h0 (h.trans_lt hN)
    have hp : (0 : Rat) < 2 ^ k := by positivity
    have h3 : z ≤ n * 2 ^ k := by
      refine h2 _ ?_
      push_cast
      exact mul_le_mul_of_nonneg_right h hp.le
    rw [h1, div_le_iff₀ hp]
    exact_mod_cast h3
  · subst h0
    simp [Order.round53]

theorem round53_pos {q : Rat} (h0 : 0 ≤ q) (h : q < 2 ^ 53) : 0 ≤ Order.round53 q := by
  rcases h0.lt_or_eq with h0 | h0
  · obtain ⟨k, z, h1, -, h2, -⟩ := round53_spec h0 h
    rw [h1]
    have := h2 0 (by push_cast; positivity)
    have : (0 : Rat) ≤ z := by exact_mod_cast this
    positivity
  · subst h0
    simp [Order.round53]

/-- half of an integer is not rounded -/
theorem round53_half {n : Nat} (hn : n < 2 ^ 53) : Order.round53 ((n : Rat) * (1 / 2)) = n / 2 := by
  rcases Nat.eq_zero_or_pos n with rfl | hp
  · simp [Order.round53]
  · have hN : (n : Rat) < 2 ^ 53 := by exact_mod_cast hn
    have hp' : (0 : Rat) < n := by exact_mod_cast hp
    have h52 : (n : Rat) * (1 / 2) < 2 ^ 52 := by linarith
    obtain ⟨k, z, h1, h2, h3, h4⟩ := round53_spec (q := (n : Rat) * (1 / 2)) (by linarith) (by linarith)
    obtain ⟨j, rfl⟩ : ∃ j, k = j + 1 := ⟨k - 1, by have := h4 h52; omega⟩
    have e : (n : Rat) * (1 / 2) * 2 ^ (j + 1) = ((n * 2 ^ j : Int) : Rat) := by
      rw [pow_succ]; push_cast; ring
    have hz : z = n * 2 ^ j := le_antisymm (h2 _ e.le) (h3 _ e.ge)
    rw [h1, hz, pow_succ]
    push_cast
    field_simp

/-! ### `chooseByOccs` -/

theorem before_iff (occs : List (α × Nat)) (most : Bool) (x y : α) :
    before occs most x y = true ↔ Before (fun z => (occs.lookup z).getD 0) most x y := by
  unfold before Before
  cases most
  · simp only [Bool.false_eq_true, if_false]
    split
    · rename_i h; simp [h]
    · rename_i h; simp at h; simp [h]
  · simp only [if_true]
    split
    · rename_i h; simp [h]
    · rename_i h; simp at h; simp [h]

theorem Before.trans {o : α → Nat} {most : Bool} {x y z : α} (h1 : Before o most x y) (h2 : Before o most y z) : Before o most x z := by
  unfold Before at *
  cases most
  · simp only [Bool.false_eq_true, if_false] at *
    rcases h1 with h1 | ⟨h1, h3⟩ <;> rcases h2 with h2 | ⟨h2, h4⟩
    · exact .inl (by omega)
    · exact .inl (by omega)
    · exact .inl (by omega)
    · exact .inr ⟨by omega, h3.trans h4⟩
  · simp only [if_true] at *
    rcases h1 with h1 | ⟨h1, h3⟩ <;> rcases h2 with h2 | ⟨h2, h4⟩
    · exact .inl (by omega)
    · exact .inl (by omega)
    · exact .inl (by omega)
    · exact .inr ⟨by omega, h4.trans h3⟩

theorem Before.asymm {o : α → Nat} {most : Bool} {x y : α} (h1 : Before o most x y) : ¬ Before o most y x := by
  intro h2
  have := h1.trans h2
  unfold Before at this
  cases most <;> simp at this

theorem Before.total (o : α → Nat) (most : Bool) {x y : α} (h : x ≠ y) : Before o most x y ∨ Before o most y x := by
  unfold Before
  cases most
  · simp only [Bool.false_eq_true, if_false]
    rcases lt_trichotomy (o x) (o y) with h1 | h1 | h1
    · exact .inl (.inl h1)
    · rcases lt_or_gt_of_ne h with h2 | h2
      · exact .inl (.inr ⟨h1, h2⟩)
      · exact .inr (.inr ⟨h1.symm, h2⟩)
    · exact .inr (.inl h1)
  · simp only [if_true]
    rcases lt_trichotomy (o x) (o y) with h1 | h1 | h1
    · exact .inr (.inl h1)
    · rcases lt_or_gt_of_ne h with h2 | h2
      · exact .inr (.inr ⟨h1.symm, h2⟩)
      · exact .inl (.inr ⟨h1, h2⟩)
    · exact .inl (.inl h1)

/-- the list is sorted by the preference -/
theorem sort_pairwise (occs : List (α × Nat)) (most : Bool) (l : List α) :
    (l.mergeSort fun x y => !before occs most y x).Pairwise fun x y => ¬ Before (fun z => (occs.lookup z).getD 0) most y x := by
  refine (List.pairwise_mergeSort ?_ ?_ l).imp ?_
  · intro a b d h1 h2
    simp only [Bool.not_eq_true', ← Bool.not_eq_true, before_iff] at *
    intro h3
    by_cases hab : a = b
    · subst hab; exact h2 h3
    · rcases Before.total _ most hab with h4 | h4
      · exact h2 (h3.trans h4)
      · exact h1 h4
  · intro a b
    simp only [Bool.or_eq_true, Bool.not_eq_true', ← Bool.not_eq_true, before_iff]
    by_contra h
    rw [not_or, not_not, not_not] at h
    exact h.1.asymm h.2
  · intro a b h
    simpa only [Bool.not_eq_true', ← Bool.not_eq_true, before_iff] using h

/-- C60: with a rate between 0 and 1 and a maximum that is not negative the providers choose, in the order of a set, the preferred variables among those that are asked for:
as many as the rate says, at most the maximum, and each of them is preferred to all that are not chosen. -/
theorem C60_choose {c : Core α} (hc : c.Wf) {ord : List α → List α} (hord : ∀ l, (ord l).Perm l) {rel : Option (List α)} {R : List α} (hR : R.Nodup)
    (hRel : ∀ x, x ∈ R ↔ c.Asked rel x) (hset : ∀ vs, rel = some vs → vs.Nodup) (hsize : R.length < 2 ^ 53) (most : Bool) {rate : Rat}
    (h0 : 0 ≤ rate) (h1 : rate ≤ 1) {maxVars : Int} (hm : 0 ≤ maxVars) :
    ∃ S, chooseByOccs ord c rel most rate maxVars = some S ∧ S.Pairwise (· < ·) ∧ (∀ x ∈ S, x ∈ R) ∧
      (S.length : Int) = min maxVars (Order.round53 ((R.length : Rat) * rate)).ceil ∧
      ∀ x ∈ S, ∀ y ∈ R, y ∉ S → Before c.occ most x y := by
  have hkeys := varOccs_keys hc rel
  have hperm : ((varOccs c rel).map (·.1)).Perm R := (List.perm_ext_iff_of_nodup (varOccs_nodup c rel) hR).2 fun x => by rw [hkeys, hRel]
  have hp1 := (List.mergeSort_perm (ord ((varOccs c rel).map (·.1))) fun x y => !before (varOccs c rel) most y x).trans ((hord _).trans hperm)
  have hsort := sort_pairwise (varOccs c rel) most (ord ((varOccs c rel).map (·.1)))
  unfold chooseByOccs
  simp only
  generalize (ord ((varOccs c rel).map (·.1))).mergeSort (fun x y => !before (varOccs c rel) most y x) = vars at hp1 hsort
  have hl : limit (baseSize rel vars) rate maxVars = min maxVars (Order.round53 ((R.length : Rat) * rate)).ceil := by
    unfold limit
    congr 5
    cases rel with
    | none => exact hp1.length_eq
    | some vs => exact ((List.perm_ext_iff_of_nodup (hset vs rfl) hR).2 fun x => (hRel x).symm).length_eq
  rw [hl]
  have hsz : (R.length : Rat) < 2 ^ 53 := by exact_mod_cast hsize
  have hq0 : 0 ≤ (R.length : Rat) * rate := mul_nonneg (by positivity) h0
  have hq1 : (R.length : Rat) * rate ≤ R.length := mul_le_of_le_one_right (by positivity) h1
  have hup := round53_le hq0 hsize hq1
  have hlo : 0 ≤ (Order.round53 ((R.length : Rat) * rate)).ceil := by
    have h2 := Rat.le_ceil (x := Order.round53 ((R.length : Rat) * rate))
    have h3 := (round53_pos hq0 (hq1.trans_lt hsz)).trans h2
    exact_mod_cast h3
  obtain ⟨L, hL⟩ : ∃ L : Nat, (L : Int) = min maxVars (Order.round53 ((R.length : Rat) * rate)).ceil :=
    ⟨(min maxVars (Order.round53 ((R.length : Rat) * rate)).ceil).toNat, Int.toNat_of_nonneg (le_min hm hlo)⟩
  rw [← hL]
  have hLR : L ≤ R.length := by
    have : (L : Int) ≤ R.length := by rw [hL]; exact (min_le_right _ _).trans hup
    exact_mod_cast this
  have hlen := hp1.length_eq
  rw [if_pos ⟨by omega, by omega⟩, Int.toNat_natCast]
  refine ⟨_, rfl, ?_, ?_, ?_, ?_⟩
  · have hn : ((vars.take L).mergeSort fun x y => decide (x ≤ y)).Nodup :=
      ((List.mergeSort_perm _ _).nodup_iff).2 ((hp1.nodup_iff.2 hR).sublist (List.take_sublist _ _))
    have hs := List.pairwise_mergeSort (le := fun x y : α => decide (x ≤ y)) (fun a b d h1 h2 => by
      simp only [decide_eq_true_eq] at *; exact h1.trans h2) (fun a b => by simpa using le_total a b) (vars.take L)
    exact hs.imp₂ (fun a b h1 h2 => lt_of_le_of_ne (by simpa using h1) h2) hn
  · intro x hx
    rw [List.mem_mergeSort] at hx
    exact hp1.mem_iff.1 (List.mem_of_mem_take hx)
  · rw [List.length_mergeSort, List.length_take]
    omega
  · intro x hx y hy hny
    rw [List.mem_mergeSort] at hx hny
    have hyv := hp1.mem_iff.2 hy
    rw [← List.take_append_drop L vars, List.mem_append] at hyv
    have hyd : y ∈ vars.drop L := hyv.resolve_left hny
    rw [← List.take_append_drop L vars, List.pairwise_append] at hsort
    have hnb := hsort.2.2 x hx y hyd
    have hxy : x ≠ y := fun e => hny (e ▸ hx)
    have hb := (Before.total (fun z => ((varOccs c rel).lookup z).getD 0) most hxy).resolve_right hnb
    have ho : ∀ z ∈ R, ((varOccs c rel).lookup z).getD 0 = c.occ z := by
      intro z hz
      rw [C60_varOccurrences hc, if_pos ((hRel z).1 hz)]; rfl
    have hxR : x ∈ R := hp1.mem_iff.1 (List.mem_of_mem_take hx)
    unfold Before at hb ⊢
    simpa only [ho x hxR, ho y hy] using hb

/-- C60: the choice does not depend on the order in which Go ranges over the map of occurrences. -/
theorem C60_deterministic {ord ord' : List α → List α} (hord : ∀ l, (ord l).Perm l) (hord' : ∀ l, (ord' l).Perm l) (c : Core α)
    (rel : Option (List α)) (most : Bool) (rate : Rat) (maxVars : Int) :
    chooseByOccs ord c rel most rate maxVars = chooseByOccs ord' c rel most rate maxVars := by
  have hp : ∀ l : List α, ((ord l).mergeSort fun x y => !before (varOccs c rel) most y x) = (ord' l).mergeSort fun x y => !before (varOccs c rel) most y x := by
    intro l
    refine List.Perm.eq_of_pairwise ?_ (sort_pairwise _ _ _) (sort_pairwise _ _ _)
      ((List.mergeSort_perm _ _).trans ((hord l).trans ((hord' l).symm.trans (List.mergeSort_perm _ _).symm)))
    intro a b _ _ h1 h2
    by_contra hne
    rcases Before.total (fun z => ((varOccs c rel).lookup z).getD 0) most hne with h | h
    · exact h2 h
    · exact h1 h
  unfold chooseByOccs
  simp only [hp]

/-- C60 (negative): a negative maximum, which the constructors accept, always panics. -/
theorem C60_negative_false (ord : List α → List α) (c : Core α) (rel : Option (List α)) (most : Bool) (rate : Rat) {maxVars : Int} (hm : maxVars < 0) :
    chooseByOccs ord c rel most rate maxVars = none := by
  unfold chooseByOccs
  simp only
  rw [if_neg]
  rintro ⟨h, -⟩
  unfold limit at h
  omega

/-- C60: the default providers choose half of the variables (rounded up), at most 18. -/
theorem C60_default_size {c : Core α} (hc : c.Wf) {ord : List α → List α} (hord : ∀ l, (ord l).Perm l) {vs : List α} (hvs : vs.Nodup)
    (hsize : vs.length < 2 ^ 53) (most : Bool) : ∃ S, chooseByOccs ord c (some vs) most (1 / 2) 18 = some S ∧ S.length = min 18 ((vs.length + 1) / 2) := by
  obtain ⟨S, h1, -, -, h2, -⟩ := C60_choose hc hord hvs (rel := some vs) (fun x => Iff.rfl) (fun ws h => by cases h; exact hvs) hsize most
    (rate := 1 / 2) (by norm_num) (by norm_num) (maxVars := 18) (by norm_num)
  refine ⟨S, h1, ?_⟩
  rw [round53_half hsize] at h2
  have : ((vs.length : Rat) / 2).ceil = ((vs.length + 1) / 2 : Nat) := by
    refine le_antisymm (Rat.ceil_le_iff.2 ?_) ?_
    · rw [div_le_iff₀ (by norm_num)]
      have : vs.length ≤ (vs.length + 1) / 2 * 2 := by omega
      exact_mod_cast this
    · have h3 := Rat.le_ceil (x := (vs.length : Rat) / 2)
      rw [div_le_iff₀ (by norm_num)] at h3
      have h4 : (vs.length : Int) ≤ ((vs.length : Rat) / 2).ceil * 2 := by exact_mod_cast h3
      omega
  rw [this] at h2
  omega

/-! ### Strategies -/

theorem choose_mem {c : Core α} (hc : c.Wf) {ord : List α → List α} (hord : ∀ l, (ord l).Perm l) {vs : List α} {most : Bool} {rate : Rat} {maxVars : Int} {S : List α}
    (h : chooseByOccs ord c (some vs) most rate maxVars = some S) {x : α} (hx : x ∈ S) : x ∈ vs := by
  unfold chooseByOccs at h
  simp only at h
  split at h
  · simp only [Option.some.injEq] at h
    subst h
    rw [List.mem_mergeSort] at hx
    have := List.mem_of_mem_take hx
    rw [List.mem_mergeSort, (hord _).mem_iff, varOccs_keys hc] at this
    exact this
  · cases h

omit [LinearOrder α] in
theorem basicStrategy_basic (call : Nat → List (Fm α) → Option (Option (α → Bool))) (go : Nat → Bool) (m : Int) (prov : List α → St α → List α) :
    Basic (basicStrategy call go m prov) m.toNat :=
  ⟨fun _ => by simp only [basicStrategy]; omega, fun _ => by simp only [basicStrategy]; omega,
   fun _ _ _ => by simp [basicStrategy], fun _ _ => rfl⟩

omit [LinearOrder α] in
theorem basicStrategy_within (call : Nat → List (Fm α) → Option (Option (α → Bool))) (go : Nat → Bool) (m : Int) {prov : List α → St α → List α}
    (h : ∀ vs s, ∀ x ∈ prov vs s, x ∈ vs) : (basicStrategy call go m prov).Within := by
  refine ⟨fun vs s d x hx => ?_, fun vs d x hx => List.mem_of_mem_take hx⟩
  simp only [basicStrategy] at hx
  split at hx
  · exact h vs s x hx
  · exact List.mem_of_mem_take hx

theorem occProv_within {ord : List α → List α} (hord : ∀ l, (ord l).Perm l) {core : St α → Core α} (hcore : ∀ s, (core s).Wf) (most : Bool) (rate : Rat)
    (maxVars : Int) (vs : List α) (s : St α) : ∀ x ∈ occProv ord core most rate maxVars vs s, x ∈ vs := by
  intro x hx
  unfold occProv at hx
  cases h : chooseByOccs ord (core s) (some vs) most rate maxVars with
  | none => rw [h] at hx; simp at hx
  | some S => rw [h] at hx; exact choose_mem (hcore s) hord h hx

open Classical in
/-- C60: with `BasicStrategy` and a provider by occurrences the enumeration ends and reports exactly the models, if all variables are known to the
solver and nothing is cancelled. -/
theorem C60_basic_enumerates {call : Nat → List (Fm α) → Option (Option (α → Bool))} {go : Nat → Bool} (m : Int) {ord : List α → List α} (hord : ∀ l, (ord l).Perm l)
    {core : St α → Core α} (hcore : ∀ s, (core s).Wf) (most : Bool) {rate : Rat} (h0 : 0 ≤ rate) (h1 : rate ≤ 1) {maxVars : Int} (hm : 0 ≤ maxVars)
    (hsat : ∀ n fs v, call n fs = some (some v) → Sat v fs) (huns : ∀ n fs, call n fs = some none → ¬ ∃ v, Sat v fs)
    (hcall : ∀ n fs, call n fs ≠ none) (hgo : ∀ n, go n = true) {V A : List α} (hV : V.Nodup) (hsize : V.length < 2 ^ 53) {s : St α}
    (hfs : ∀ f ∈ s.fs, ∀ x ∈ f.vars, x ∈ s.kn) (hkn : ∀ x ∈ V, x ∈ s.kn) :
    ∃ F k L cnt, run (basicStrategy call go m (occProv ord core most rate maxVars)) F k V A s = some (true, L, cnt) ∧
      (L.map fun M => V.filter fun x => (⟨x, true⟩ : Lit α) ∈ M).Perm (V.sublists'.filter fun S => ∃ u, Sat u s.fs ∧ ∀ x ∈ V, u x = asgOf S x) ∧
      cnt = count V fun w => ∃ u, Sat u s.fs ∧ ∀ x ∈ V, u x = w x := by
  have hok : (basicStrategy call go m (occProv ord core most rate maxVars)).Ok := ⟨hsat, huns⟩
  have hw := basicStrategy_within call go m (occProv_within hord hcore most rate maxVars)
  have ht : (basicStrategy call go m (occProv ord core most rate maxVars)).Total := ⟨hcall, hgo⟩
  have hlen : ((basicStrategy call go m (occProv ord core most rate maxVars)).split V s 0).length ≤ V.length := by
    obtain ⟨S, k1, k2, k3, -, -⟩ := C60_choose (hcore s) hord hV (rel := some V) (fun x => Iff.rfl) (fun ws h => by cases h; exact hV) hsize most h0 h1 hm
    simp only [basicStrategy, if_true, occProv, k1, Option.getD_some]
    exact (List.subperm_of_subset (k2.imp fun h => h.ne) k3).length_le
  obtain ⟨F, k, hr⟩ := C27_terminates_partial (A := A) hok hw (basicStrategy_basic call go m _) hlen hfs hkn
  obtain ⟨⟨ok, L, cnt⟩, hr⟩ := Option.ne_none_iff_exists'.1 hr
  obtain ⟨rfl, e2, e3⟩ := C27_enumeration hok hw ht hV hfs (fun x _ h => hkn x h) hr
  refine ⟨F, k, L, cnt, hr, ?_, ?_⟩
  · convert e2 using 2
  · convert e3 using 2

open Classical in
/-- C60: so does the default strategy. -/
theorem C60_default_enumerates {call : Nat → List (Fm α) → Option (Option (α → Bool))} {go : Nat → Bool} {ord : List α → List α} (hord : ∀ l, (ord l).Perm l)
    {core : St α → Core α} (hcore : ∀ s, (core s).Wf)
    (hsat : ∀ n fs v, call n fs = some (some v) → Sat v fs) (huns : ∀ n fs, call n fs = some none → ¬ ∃ v, Sat v fs)
    (hcall : ∀ n fs, call n fs ≠ none) (hgo : ∀ n, go n = true) {V A : List α} (hV : V.Nodup) (hsize : V.length < 2 ^ 53) {s : St α}
    (hfs : ∀ f ∈ s.fs, ∀ x ∈ f.vars, x ∈ s.kn) (hkn : ∀ x ∈ V, x ∈ s.kn) :
    ∃ F k L cnt, run (defaultStrategy call go ord core) F k V A s = some (true, L, cnt) ∧
      (L.map fun M => V.filter fun x => (⟨x, true⟩ : Lit α) ∈ M).Perm (V.sublists'.filter fun S => ∃ u, Sat u s.fs ∧ ∀ x ∈ V, u x = asgOf S x) ∧
      cnt = count V fun w => ∃ u, Sat u s.fs ∧ ∀ x ∈ V, u x = w x :=
  C60_basic_enumerates 500 hord hcore true (by norm_num) (by norm_num) (by norm_num) hsat huns hcall hgo hV hsize hfs hkn

open Classical in
/-- C60: without splits the enumeration ends and reports exactly the models for up to 62 variables, known to the solver or not. -/
theorem C60_nosplit_enumerates {call : Nat → List (Fm α) → Option (Option (α → Bool))} {go : Nat → Bool}
    (hsat : ∀ n fs v, call n fs = some (some v) → Sat v fs) (huns : ∀ n fs, call n fs = some none → ¬ ∃ v, Sat v fs)
    (hcall : ∀ n fs, call n fs ≠ none) (hgo : ∀ n, go n = true) {V A : List α} (hV : V.Nodup) (hsize : V.length ≤ 62) {s : St α}
    (hfs : ∀ f ∈ s.fs, ∀ x ∈ f.vars, x ∈ s.kn) (hA : ∀ x ∈ A, x ∈ V → x ∈ s.kn) :
    ∃ F k L cnt, run (noSplitStrategy call go) F k V A s = some (true, L, cnt) ∧
      (L.map fun M => V.filter fun x => (⟨x, true⟩ : Lit α) ∈ M).Perm (V.sublists'.filter fun S => ∃ u, Sat u s.fs ∧ ∀ x ∈ V, u x = asgOf S x) ∧
      cnt = count V fun w => ∃ u, Sat u s.fs ∧ ∀ x ∈ V, u x = w x := by
  have hok : (noSplitStrategy call go).Ok := ⟨hsat, huns⟩
  have hw : (noSplitStrategy call go).Within := ⟨fun _ _ _ x hx => by simp [noSplitStrategy] at hx, fun _ _ x hx => by simp [noSplitStrategy] at hx⟩
  have ht : (noSplitStrategy call go).Total := ⟨hcall, hgo⟩
  have hm : 2 ^ V.length < (noSplitStrategy call go).maxIter 0 :=
    lt_of_le_of_lt (Nat.pow_le_pow_right (by norm_num) hsize) (by simp [noSplitStrategy])
  obtain ⟨F, k, hr⟩ := C27_terminates_nosplit (A := A) (s := s) hok hm
  obtain ⟨⟨ok, L, cnt⟩, hr⟩ := Option.ne_none_iff_exists'.1 hr
  obtain ⟨rfl, e2, e3⟩ := C27_enumeration hok hw ht hV hfs hA hr
  refine ⟨F, k, L, cnt, hr, ?_, ?_⟩
  · convert e2 using 2
  · convert e3 using 2

/-! ### A fixed provider with other variables -/

/-- satisfiability over the variables 0, 1, 2 by a truth table -/
def table (fs : List (Fm Nat)) : Option (Nat → Bool) :=
  ([0, 1, 2, 3, 4, 5, 6, 7].find? fun i => fs.all fun f => f.eval (Nat.testBit i)).map Nat.testBit

/-- the truth table answers rightly for formulas over these variables -/
theorem table_ok (fs : List (Fm Nat)) (hfs : ∀ f ∈ fs, ∀ x ∈ f.vars, x < 3) : (∀ v, table fs = some v → Sat v fs) ∧ (table fs = none → ¬ ∃ v, Sat v fs) := by
  constructor
  · intro v h
    obtain ⟨i, hi, rfl⟩ := Option.map_eq_some_iff.1 h
    have := List.find?_some hi
    exact fun f hf => List.all_eq_true.1 this f hf
  · rintro h ⟨v, hv⟩
    rw [table, Option.map_eq_none_iff, List.find?_eq_none] at h
    have hex : ∃ i ∈ [0, 1, 2, 3, 4, 5, 6, 7], ∀ x < 3, v x = Nat.testBit i x := by
      have key : ∀ a b c : Bool, ∃ i ∈ [0, 1, 2, 3, 4, 5, 6, 7], Nat.testBit i 0 = a ∧ Nat.testBit i 1 = b ∧ Nat.testBit i 2 = c := by decide
      obtain ⟨i, hi, h0, h1, h2⟩ := key (v 0) (v 1) (v 2)
      refine ⟨i, hi, fun x hx => ?_⟩
      match x, hx with
      | 0, _ => exact h0.symm
      | 1, _ => exact h1.symm
      | 2, _ => exact h2.symm
    obtain ⟨i, hi, hx⟩ := hex
    refine h i hi (List.all_eq_true.2 fun f hf => ?_)
    rw [← hv f hf]
    exact Fm.eval_congr f fun x hxf => (hx x (hfs f hf x hxf)).symm

/-- `x0 ∨ x1`, with the further known variable 2 -/
def exSt : St Nat := ⟨[0, 1, 2], [.or [.lit ⟨0, true⟩, .lit ⟨1, true⟩]]⟩

/-- C60 (negative): `FixedVarProvider` with a variable that is not enumerated: `x0 ∨ x1` has three models over 0 and 1, six are reported. -/
theorem C60_fixed_false : (run (basicStrategy (fun _ fs => some (table fs)) (fun _ => true) 3 (fixedProv [2])) 9 9 [0, 1] [] exSt).map (fun r => (r.1, r.2.2)) = some (true, 6) ∧
    count [0, 1] (fun w => w 0 || w 1) = 3 := by
  decide +kernel

/-- the same with a variable that is enumerated -/
example : (run (basicStrategy (fun _ fs => some (table fs)) (fun _ => true) 3 (fixedProv [1])) 9 9 [0, 1] [] exSt).map (fun r => (r.1, r.2.2)) = some (true, 3) := by
  decide +kernel

/-! ### Examples -/

/-- clauses `x10 ∨ ¬x20`, `x20 ∨ x30 ∨ x10`; `x40` is assigned at level 0 -/
def exCore : Core Nat := ⟨[10, 20, 30, 40], [false, false, false, true], [[0, 3], [2, 4, 0]]⟩

example : exCore.Wf := ⟨by decide, rfl⟩
example : varOccs exCore (some [10, 30, 50]) = [(10, 2), (30, 1), (50, 0)] := by decide +kernel
example : varOccs exCore none = [(10, 2), (20, 2), (30, 1), (40, 1)] := by decide +kernel
/-- two of three variables, in either preference -/
example : ∃ S, chooseByOccs List.reverse exCore (some [10, 30, 40]) true (1 / 2) 18 = some S ∧ S.length = 2 ∧ 10 ∈ S := by
  have hc : exCore.Wf := ⟨by decide, rfl⟩
  obtain ⟨S, h1, h2, h3, h4, h5⟩ := C60_choose (ord := List.reverse) hc (fun l => List.reverse_perm l) (R := [10, 30, 40]) (by decide) (rel := some [10, 30, 40])
    (fun x => Iff.rfl) (fun vs h => by cases h; decide) (by decide) true (rate := 1 / 2) (by norm_num) (by norm_num) (maxVars := 18) (by norm_num)
  have h6 : S.length = 2 := by
    have : min 18 (Order.round53 ((([10, 30, 40] : List Nat).length : Rat) * (1 / 2))).ceil = 2 := by decide +kernel
    rw [this] at h4
    exact_mod_cast h4
  refine ⟨S, h1, h6, ?_⟩
  by_contra hn
  match S, h6 with
  | a :: _, _ =>
    have ha := h3 a (by simp)
    have hb := h5 a (by simp) 10 (by simp) hn
    have ho : ∀ x ∈ [10, 30, 40], exCore.occ x = ((varOccs exCore (some [10, 30, 40])).lookup x).getD 0 := fun x hx => by
      rw [C60_varOccurrences hc, if_pos (show exCore.Asked (some [10, 30, 40]) x from hx)]; rfl
    unfold Before at hb
    rw [ho a ha, ho 10 (by simp)] at hb
    revert hb
    have : a = 30 ∨ a = 40 := by
      simp only [List.mem_cons, List.not_mem_nil, or_false] at ha
      rcases ha with rfl | h
      · simp at hn
      · exact h
    rcases this with rfl | rfl <;> decide +kernel

example : limit 5 (1 / 2) 18 = 3 := by decide +kernel

end Verif.Enum
