import Verif.PB.Normalize
import Mathlib.Tactic.Linarith
import Mathlib.Tactic.Ring
import Mathlib.Algebra.BigOperators.Group.List.Lemmas
/-!
# Properties of the normalization of pseudo-Boolean constraints (C15)
-/
namespace Verif.PB
open Verif Verif.Tree
variable {α : Type} [DecidableEq α]

theorem linSum_append (v : α → Bool) (a b : Terms α) : linSum v (a ++ b) = linSum v a + linSum v b := by
  induction a with
  | nil => simp [linSum]
  | cons t a ih => obtain ⟨x, l⟩ := t; simp only [List.cons_append, linSum, ih]; omega
theorem linSum_eq_sum (v : α → Bool) (a : Terms α) : linSum v a = (a.map fun t => if t.2.eval v then t.1 else 0).sum := by
  induction a with
  | nil => rfl
  | cons t a ih => obtain ⟨x, l⟩ := t; simp only [linSum, ih, List.map_cons, List.sum_cons]
theorem linSum_perm (v : α → Bool) {a b : Terms α} (h : a.Perm b) : linSum v a = linSum v b := by
  rw [linSum_eq_sum, linSum_eq_sum]; exact (h.map _).sum_eq
theorem linSum_nonzero (v : α → Bool) (a : Terms α) : linSum v (a.filter (fun t => t.1 ≠ 0)) = linSum v a := by
  induction a with
  | nil => rfl
  | cons t a ih =>
    obtain ⟨x, l⟩ := t
    rw [List.filter_cons]
    by_cases h : x = 0
    · subst h; simpa [linSum] using ih
    · simp only [ne_eq, h, not_false_eq_true, decide_true, if_true, linSum, ih]
theorem linSum_neg (v : α → Bool) (a : Terms α) : linSum v (a.map fun t => (-t.1, t.2)) = -linSum v a := by
  induction a with
  | nil => rfl
  | cons t a ih =>
    obtain ⟨x, l⟩ := t
    simp only [List.map_cons, linSum, ih]
    split <;> omega
theorem zip_neg (ts : Terms α) : ((ts.map (·.1)).map (- ·)).zip (ts.map (·.2)) = ts.map fun t => (-t.1, t.2) := by
  rw [List.map_map, List.zip_map']; rfl
theorem zip_same (ts : Terms α) : (ts.map (·.1)).zip (ts.map (·.2)) = ts := by
  rw [List.zip_map']
  conv_rhs => rw [← List.map_id ts]
  rfl

/-- value of one entry -/
theorem entry_value (v : α → Bool) (ts : Terms α) (x : α) :
    (entry ts x).1 + linSum v [(entry ts x).2] = if v x then coef ts ⟨x, true⟩ else coef ts ⟨x, false⟩ := by
  simp only [entry, linSum]
  split <;> cases h : v x <;> simp [Lit.eval, h]

theorem coef_cons (t : Int × Lit α) (ts : Terms α) (l : Lit α) : coef (t :: ts) l = (if t.2 = l then t.1 else 0) + coef ts l := by
  unfold coef
  rw [List.filter_cons]
  by_cases h : t.2 = l <;> simp [h]

theorem sum_ite_nodup {x : α} {c : Int} : ∀ {ks : List α}, ks.Nodup → x ∈ ks → (ks.map fun y => if y = x then c else 0).sum = c
  | [], _, h => by simp at h
  | y :: ks, hn, h => by
    rw [List.nodup_cons] at hn
    rw [List.map_cons, List.sum_cons]
    by_cases e : y = x
    · subst e
      have : ∀ z ∈ ks, (if z = y then c else 0) = 0 := fun z hz => by
        rw [if_neg]; rintro rfl; exact hn.1 hz
      rw [List.map_congr_left this]
      simp
    · rw [if_neg e, sum_ite_nodup hn.2 (by rcases List.mem_cons.1 h with rfl | h; exact absurd rfl e; exact h)]
      simp

theorem linSum_by_keys (v : α → Bool) {ks : List α} (hn : ks.Nodup) : ∀ {ts : Terms α}, (∀ t ∈ ts, t.2.var ∈ ks) →
    linSum v ts = (ks.map fun x => if v x then coef ts ⟨x, true⟩ else coef ts ⟨x, false⟩).sum
  | [], _ => by simp [linSum, coef]
  | t :: ts, h => by
    have ih := linSum_by_keys v hn (fun s hs => h s (List.mem_cons_of_mem _ hs))
    obtain ⟨a, ⟨y, p⟩⟩ := t
    have hy : y ∈ ks := h _ List.mem_cons_self
    have : ∀ x ∈ ks, (if v x then coef ((a, ⟨y, p⟩) :: ts) ⟨x, true⟩ else coef ((a, ⟨y, p⟩) :: ts) ⟨x, false⟩) =
        (if x = y then (if (⟨y, p⟩ : Lit α).eval v then a else 0) else 0) + (if v x then coef ts ⟨x, true⟩ else coef ts ⟨x, false⟩) := by
      intro x _
      rw [coef_cons, coef_cons]
      by_cases e : x = y
      · subst e
        cases hv : v x <;> cases p <;> simp [Lit.eval, hv]
      · have e' : y ≠ x := fun h => e h.symm
        cases hv : v x <;> simp [e, e']
    rw [List.map_congr_left this, List.sum_map_add, sum_ite_nodup hn hy, ← ih]
    rfl

theorem keys_nodup (ts : Terms α) : (keys ts).Nodup := List.nodup_dedup _
theorem mem_keys {ts : Terms α} {t : Int × Lit α} (h : t ∈ ts) : t.2.var ∈ keys ts := by
  rw [keys, List.mem_dedup]; exact List.mem_map.2 ⟨t, h, rfl⟩

theorem linSum_flat (v : α → Bool) (ks : List (Int × Lit α)) : linSum v ks = (ks.map fun t => linSum v [t]).sum := by
  rw [linSum_eq_sum]; congr 1
  apply List.map_congr_left
  rintro ⟨a, l⟩ _
  simp [linSum]

/-- the entries represent the sum -/
theorem entries_value (v : α → Bool) (ts : Terms α) :
    (((keys ts).map (entry ts)).map (·.1)).sum + linSum v (((keys ts).map (entry ts)).map (·.2)) = linSum v ts := by
  rw [linSum_by_keys v (keys_nodup ts) (fun t ht => mem_keys ht), linSum_flat, List.map_map, List.map_map, List.map_map, ← List.sum_map_add]
  congr 1
  apply List.map_congr_left
  intro x _
  exact entry_value v ts x

theorem gcdAll_dvd (c : Int) (hc : 0 ≤ c) : ∀ (cs : List Int), (∀ x ∈ cs, 0 < x) → ((gcdAll c cs : Nat) : Int) ∣ c ∧ ∀ x ∈ cs, ((gcdAll c cs : Nat) : Int) ∣ x := by
  have key : ∀ (cs : List Int) (d : Nat), (∀ x ∈ cs, 0 < x) → (cs.foldl (fun d x => Nat.gcd d x.toNat) d) ∣ d ∧ ∀ x ∈ cs, ((cs.foldl (fun d x => Nat.gcd d x.toNat) d : Nat) : Int) ∣ x := by
    intro cs
    induction cs with
    | nil => intro d _; simp
    | cons y cs ih =>
      intro d h
      have ⟨h1, h2⟩ := ih (Nat.gcd d y.toNat) (fun x hx => h x (List.mem_cons_of_mem _ hx))
      rw [List.foldl_cons]
      refine ⟨Nat.dvd_trans h1 (Nat.gcd_dvd_left _ _), fun x hx => ?_⟩
      rcases List.mem_cons.1 hx with rfl | hx
      · have := Nat.dvd_trans h1 (Nat.gcd_dvd_right d x.toNat)
        have h0 := h x (by simp)
        have := Int.natCast_dvd_natCast.2 this
        rwa [Int.toNat_of_nonneg (by omega)] at this
      · exact h2 x hx
  intro cs h
  obtain ⟨h1, h2⟩ := key cs c.toNat h
  refine ⟨?_, h2⟩
  have := Int.natCast_dvd_natCast.2 h1
  rwa [Int.toNat_of_nonneg hc] at this

theorem linSum_div (v : α → Bool) {d : Int} (hd : 0 < d) : ∀ (ts : Terms α), (∀ t ∈ ts, d ∣ t.1) → linSum v ts = d * linSum v (ts.map fun t => (t.1 / d, t.2))
  | [], _ => by simp [linSum]
  | (a, l) :: ts, h => by
    simp only [List.map_cons, linSum]
    rw [linSum_div v hd ts (fun t ht => h t (List.mem_cons_of_mem _ ht))]
    have := Int.mul_ediv_cancel' (h (a, l) (by simp))
    simp only at this
    rw [Int.mul_add]
    split
    · rw [this]
    · simp

/-- a normalized constraint: constant, or a `≤` constraint with positive coefficients whose sum exceeds the right-hand side, on different variables
out of `V`, without common divisor; the sum of the coefficients is at most `B` -/
def Normal (B : Int) (V : List α) (f : Fm α) : Prop := f = .fls ∨ f = .tru ∨ ∃ (c : Int) (ts : Terms α), f = tPBC .le c ts ∧ ts ≠ [] ∧ 0 ≤ c ∧ (∀ t ∈ ts, 0 < t.1) ∧
  c < (ts.map (·.1)).sum ∧ (ts.map (·.2.var)).Nodup ∧ gcdAll c (ts.map (·.1)) = 1 ∧ (ts.map (·.1)).sum ≤ B ∧ ∀ t ∈ ts, t.2.var ∈ V

/-- sum of the absolute values of the coefficients -/
def absSum (ts : Terms α) : Int := (ts.map fun t => (t.1.natAbs : Int)).sum

theorem Normal.mono {B B' : Int} {V V' : List α} {f : Fm α} (h : Normal B V f) (hB : B ≤ B') (hV : ∀ x ∈ V, x ∈ V') : Normal B' V' f := by
  rcases h with h | h | ⟨c, ts, h1, h2, h3, h4, h5, h6, h7, h8, h9⟩
  · exact .inl h
  · exact .inr (.inl h)
  · exact .inr (.inr ⟨c, ts, h1, h2, h3, h4, h5, h6, h7, Int.le_trans h8 hB, fun t ht => hV _ (h9 t ht)⟩)

theorem linSum_nonneg (v : α → Bool) {ts : Terms α} (h : ∀ t ∈ ts, 0 < t.1) : 0 ≤ linSum v ts ∧ linSum v ts ≤ (ts.map (·.1)).sum := by
  induction ts with
  | nil => simp [linSum]
  | cons t ts ih =>
    obtain ⟨a, l⟩ := t
    have := ih (fun t ht => h t (List.mem_cons_of_mem _ ht))
    have h0 := h (a, l) (by simp)
    simp only [linSum, List.map_cons, List.sum_cons] at *
    split <;> omega

theorem dvd_gcdAll {k : Nat} : ∀ (cs : List Int) (d : Nat), k ∣ d → (∀ x ∈ cs, k ∣ x.toNat) → k ∣ cs.foldl (fun d x => Nat.gcd d x.toNat) d
  | [], _, h, _ => h
  | y :: cs, d, h, hx => by
    rw [List.foldl_cons]
    exact dvd_gcdAll cs _ (Nat.dvd_gcd h (hx y (by simp))) (fun x h => hx x (List.mem_cons_of_mem _ h))

theorem gcdAll_div {c : Int} (hc : 0 ≤ c) {cs : List Int} (hp : ∀ x ∈ cs, 0 < x) (hd : gcdAll c cs ≠ 0) :
    gcdAll (c / (gcdAll c cs : Nat)) (cs.map (· / ((gcdAll c cs : Nat) : Int))) = 1 := by
  obtain ⟨h1, h2⟩ := gcdAll_dvd c hc cs hp
  generalize hg : gcdAll c cs = d at *
  have hd0 : (0 : Int) < d := by omega
  have hc' : 0 ≤ c / d := Int.ediv_nonneg hc (by omega)
  have hp' : ∀ x ∈ cs.map (· / (d : Int)), 0 < x := by
    intro x hx
    obtain ⟨y, hy, rfl⟩ := List.mem_map.1 hx
    exact Int.ediv_pos_of_pos_of_dvd (hp y hy) (by omega) (h2 y hy)
  obtain ⟨h3, h4⟩ := gcdAll_dvd (c / d) hc' _ hp'
  generalize gcdAll (c / d) (cs.map (· / (d : Int))) = e at *
  have key : e * d ∣ d := by
    conv_rhs => rw [← hg]
    apply dvd_gcdAll
    · have := Int.mul_dvd_mul_right (d : Int) h3
      rw [Int.ediv_mul_cancel h1] at this
      rw [← Int.natCast_dvd_natCast, Int.toNat_of_nonneg hc]; push_cast; exact this
    · intro x hx
      have := Int.mul_dvd_mul_right (d : Int) (h4 _ (List.mem_map.2 ⟨x, hx, rfl⟩))
      rw [Int.ediv_mul_cancel (h2 x hx)] at this
      have h0 := hp x hx
      rw [← Int.natCast_dvd_natCast, Int.toNat_of_nonneg (by omega)]; push_cast; exact this
  have h5 := Nat.le_of_dvd (by omega) key
  have h6 : 0 < e := by
    rcases Nat.eq_zero_or_pos e with h | h
    · subst h
      rw [Nat.zero_mul] at key
      exact absurd (Nat.eq_zero_of_zero_dvd key) hd
    · exact h
  by_contra hne
  have : 2 * d ≤ e * d := Nat.mul_le_mul_right d (by omega)
  omega

theorem divLoop_one {S : Int} (fuel : Nat) (c : Int) (ts : Terms α) (hp : ∀ t ∈ ts, 0 < t.1) (h0 : 0 ≤ c)
    (hS : c < S) (hs : c < (ts.map (·.1)).sum) (hn : (ts.map (·.2.var)).Nodup) (hg : gcdAll c (ts.map (·.1)) = 1) {B : Int} {V : List α} (hB : (ts.map (·.1)).sum ≤ B) (hV : ∀ t ∈ ts, t.2.var ∈ V) :
    ∃ f, divLoop S (fuel + 1) c ts = some f ∧ Normal B V f ∧ ∀ v, f.eval v = decide (linSum v ts ≤ c) := by
  refine ⟨tPBC .le c ts, ?_, .inr (.inr ⟨c, ts, rfl, ?_, h0, hp, hs, hn, hg, hB, hV⟩), fun v => ?_⟩
  · simp only [divLoop, hg]
    rw [if_neg (by omega), if_neg (by omega), if_neg (by simp)]
  · rintro rfl; simp at hs; omega
  · rw [eval_tPBC]; rfl

/-- at most one division takes place -/
theorem divLoop_ok (fuel : Nat) (c : Int) (ts : Terms α) (hp : ∀ t ∈ ts, 0 < t.1) (hn : (ts.map (·.2.var)).Nodup) {B : Int} {V : List α} (hB : (ts.map (·.1)).sum ≤ B) (hV : ∀ t ∈ ts, t.2.var ∈ V) :
    ∃ f, divLoop (ts.map (·.1)).sum (fuel + 2) c ts = some f ∧ Normal B V f ∧ ∀ v, f.eval v = decide (linSum v ts ≤ c) := by
  have hb := fun v => linSum_nonneg v hp
  by_cases h0 : c < 0
  · refine ⟨.fls, by rw [divLoop, if_pos h0], .inl rfl, fun v => ?_⟩
    have := hb v
    simp only [Fm.eval]
    symm; rw [decide_eq_false_iff_not]; omega
  by_cases h1 : (ts.map (·.1)).sum ≤ c
  · refine ⟨.tru, by rw [divLoop, if_neg h0, if_pos h1], .inr (.inl rfl), fun v => ?_⟩
    have := hb v
    simp only [Fm.eval]
    symm; rw [decide_eq_true_iff]; omega
  have hcs : ∀ x ∈ ts.map (·.1), 0 < x := by
    intro x hx; obtain ⟨t, ht, rfl⟩ := List.mem_map.1 hx; exact hp t ht
  by_cases hg : gcdAll c (ts.map (·.1)) = 1
  · exact divLoop_one _ c ts hp (by omega) (by omega) (by omega) hn hg hB hV
  have hc0 : 0 ≤ c := by omega
  have hgz : gcdAll c (ts.map (·.1)) ≠ 0 := by
    intro hz
    have := (gcdAll_dvd c hc0 _ hcs).2
    rw [hz] at this
    cases ts with
    | nil => simp at h1; omega
    | cons t ts =>
      have h2 := Int.zero_dvd.1 (by simpa using this t.1 (by simp))
      have := hp t (by simp); omega
  obtain ⟨h2, h3⟩ := gcdAll_dvd c hc0 _ hcs
  have h4 := gcdAll_div hc0 hcs hgz
  have hstep : divLoop (ts.map (·.1)).sum (fuel + 2) c ts =
      divLoop (ts.map (·.1)).sum (fuel + 1) (c / (gcdAll c (ts.map (·.1)) : Nat)) (ts.map fun t => (t.1 / ((gcdAll c (ts.map (·.1)) : Nat) : Int), t.2)) := by
    rw [divLoop, if_neg h0, if_neg h1]
    rw [if_pos (by omega)]
  rw [hstep]
  generalize gcdAll c (ts.map (·.1)) = d at *
  have hd0 : (0 : Int) < d := by omega
  have hdiv : ∀ t ∈ ts, (d : Int) ∣ t.1 := fun t ht => h3 _ (List.mem_map.2 ⟨t, ht, rfl⟩)
  have hsum : (ts.map (·.1)).sum = d * ((ts.map fun t => (t.1 / (d : Int), t.2)).map (·.1)).sum := by
    clear h4 hstep hb h1 hg hn hcs h3 hB hV
    induction ts with
    | nil => simp
    | cons t ts ih =>
      simp only [List.map_cons, List.sum_cons]
      rw [ih (fun t ht => hp t (List.mem_cons_of_mem _ ht)) (fun t ht => hdiv t (List.mem_cons_of_mem _ ht)), Int.mul_add,
        Int.mul_ediv_cancel' (hdiv t (by simp))]
  have hcd : c = d * (c / d) := (Int.mul_ediv_cancel' h2).symm
  have hle : c / d ≤ c := Int.ediv_le_self _ hc0
  have hlt : c / d < ((ts.map fun t => (t.1 / (d : Int), t.2)).map (·.1)).sum := by
    have : (d : Int) * (c / d) < d * ((ts.map fun t => (t.1 / (d : Int), t.2)).map (·.1)).sum := by rw [← hsum, ← hcd]; omega
    exact Int.lt_of_mul_lt_mul_left this (by omega)
  obtain ⟨f, hf, hnf, he⟩ := divLoop_one (S := (ts.map (·.1)).sum) fuel (c / d) (ts.map fun t => (t.1 / (d : Int), t.2)) (by
      intro t ht
      obtain ⟨s, hs, rfl⟩ := List.mem_map.1 ht
      exact Int.ediv_pos_of_pos_of_dvd (hp s hs) (by omega) (hdiv s hs))
    (Int.ediv_nonneg hc0 (by omega)) (by omega) hlt (by rw [List.map_map]; exact hn) (by rw [List.map_map] at h4; rw [List.map_map]; exact h4) (B := B) (V := V) (by
      refine Int.le_trans ?_ hB
      rw [hsum]
      have h5 : 0 ≤ ((ts.map fun t => (t.1 / (d : Int), t.2)).map (·.1)).sum := by have := Int.ediv_nonneg hc0 (show (0 : Int) ≤ d by omega); omega
      nlinarith) (by intro t ht; obtain ⟨s, hs, rfl⟩ := List.mem_map.1 ht; exact hV s hs)
  refine ⟨f, hf, hnf, fun v => ?_⟩
  rw [he, decide_eq_decide, linSum_div v hd0 ts hdiv]
  conv_rhs => rw [hcd]
  exact (Int.mul_le_mul_left hd0).symm

theorem coef_nil (l : Lit α) : coef ([] : Terms α) l = 0 := rfl
theorem sum_le_of_le {β : Type} {f g : β → Int} (h : ∀ x, f x ≤ g x) : ∀ ks : List β, (ks.map f).sum ≤ (ks.map g).sum
  | [] => Int.le_refl _
  | x :: ks => by simpa using Int.add_le_add (h x) (sum_le_of_le h ks)
theorem absSum_by_keys {ks : List α} (hn : ks.Nodup) : ∀ (ts : Terms α), (ks.map fun x => ((coef ts ⟨x, true⟩ - coef ts ⟨x, false⟩).natAbs : Int)).sum ≤ absSum ts
  | [] => by simp [coef_nil, absSum]
  | t :: ts => by
    have ih := absSum_by_keys hn ts
    obtain ⟨a, ⟨y, p⟩⟩ := t
    have h1 : (ks.map fun x => ((coef ((a, ⟨y, p⟩) :: ts) ⟨x, true⟩ - coef ((a, ⟨y, p⟩) :: ts) ⟨x, false⟩).natAbs : Int)).sum ≤
        (ks.map fun x => (if x = y then (a.natAbs : Int) else 0) + ((coef ts ⟨x, true⟩ - coef ts ⟨x, false⟩).natAbs : Int)).sum := by
      apply sum_le_of_le
      intro x
      rw [coef_cons, coef_cons]
      by_cases e : x = y
      · subst e
        cases p <;> simp [-Nat.cast_natAbs, -Int.natCast_natAbs] <;> omega
      · have e' : y ≠ x := fun h => e h.symm
        simp [e, e']
    rw [List.sum_map_add] at h1
    have h2 : (ks.map fun x => (if x = y then (a.natAbs : Int) else 0)).sum ≤ a.natAbs := by
      by_cases hy : y ∈ ks
      · rw [sum_ite_nodup hn hy]
      · rw [List.map_congr_left (g := fun _ => (0 : Int)) (fun x hx => if_neg (by rintro rfl; exact hy hx))]
        simp
    have h3 : absSum ((a, ⟨y, p⟩) :: ts) = a.natAbs + absSum ts := by simp [absSum]
    rw [h3]; linarith

theorem sum_nonzero (a : Terms α) : ((a.filter (fun t => t.1 ≠ 0)).map (·.1)).sum = (a.map (·.1)).sum := by
  induction a with
  | nil => rfl
  | cons t a ih =>
    rw [List.filter_cons]
    by_cases h : t.1 = 0
    · simpa [h] using ih
    · simp only [ne_eq, h, not_false_eq_true, decide_true, if_true, List.map_cons, List.sum_cons] at ih ⊢; rw [ih]
theorem absSum_nonzero (a : Terms α) : absSum (a.filter (fun t => t.1 ≠ 0)) = absSum a := by
  unfold absSum
  induction a with
  | nil => rfl
  | cons t a ih =>
    rw [List.filter_cons]
    by_cases h : t.1 = 0
    · simpa [h] using ih
    · simp only [ne_eq, h, not_false_eq_true, decide_true, if_true, List.map_cons, List.sum_cons] at ih ⊢; rw [ih]
theorem absSum_neg (a : Terms α) : absSum (a.map fun t => (-t.1, t.2)) = absSum a := by
  simp [absSum, List.map_map, Function.comp_def]

theorem normKept_ok {ord : Terms α → Terms α} (ho : ∀ l, (ord l).Perm l) (fuel : Nat) (ts : Terms α) (rhs : Int) :
    ∃ f, normKept ord (fuel + 2) ts rhs = some f ∧ Normal (absSum ts) (ts.map (·.2.var)) f ∧ ∀ v, f.eval v = decide (linSum v ts ≤ rhs) := by
  obtain ⟨f, hf, hn, he⟩ := divLoop_ok fuel (rhs - (((keys ts).map (entry ts)).map (·.1)).sum) ((ord (((keys ts).map (entry ts)).map (·.2))).filter (fun t => t.1 ≠ 0)) (by
      intro t ht
      rw [List.mem_filter] at ht
      obtain ⟨x, _, rfl⟩ := List.mem_map.1 ((ho _).subset ht.1)
      obtain ⟨x, _, rfl⟩ := List.mem_map.1 ‹_›
      have h0 : (entry ts x).2.1 ≠ 0 := by simpa using ht.2
      revert h0
      simp only [entry]
      split <;> intro h0 <;> dsimp only at h0 ⊢ <;> omega) (by
      have h1 : (((keys ts).map (entry ts)).map (·.2)).map (·.2.var) = keys ts := by
        rw [List.map_map, List.map_map]
        conv_rhs => rw [← List.map_id (keys ts)]
        apply List.map_congr_left
        intro x _
        simp only [Function.comp, entry, id]; split <;> rfl
      have h2 := ((ho (((keys ts).map (entry ts)).map (·.2))).map (·.2.var)).nodup_iff.2 (by rw [h1]; exact keys_nodup ts)
      exact h2.sublist (List.filter_sublist.map _)) (B := absSum ts) (V := ts.map (·.2.var)) (by
      rw [sum_nonzero, ((ho _).map _).sum_eq, List.map_map, List.map_map]
      refine Int.le_trans (Int.le_of_eq ?_) (absSum_by_keys (keys_nodup ts) ts)
      congr 1
      apply List.map_congr_left
      intro x _
      simp only [Function.comp, entry]
      split <;> dsimp only <;> omega) (by
      intro t ht
      obtain ⟨x, h1, h2⟩ := List.mem_map.1 ((ho _).subset (List.mem_of_mem_filter ht))
      obtain ⟨y, hy, rfl⟩ := List.mem_map.1 h1
      rw [keys, List.mem_dedup] at hy
      rw [← h2]
      have : (entry ts y).2.2.var = y := by simp only [entry]; split <;> rfl
      rw [this]; exact hy)
  refine ⟨f, hf, hn, fun v => ?_⟩
  rw [he, decide_eq_decide, linSum_nonzero, linSum_perm v (ho _)]
  have := entries_value v ts
  omega

theorem normalizeLE_ok {ord : Terms α → Terms α} (ho : ∀ l, (ord l).Perm l) (fuel : Nat) (ps : List (Lit α)) (cs : List Int) (rhs : Int) :
    ∃ f, (normalizeLE ord (fuel + 2) ps cs rhs).1 = some f ∧ Normal (absSum (cs.zip ps)) ((cs.zip ps).map (·.2.var)) f ∧ ∀ v, f.eval v = decide (linSum v (cs.zip ps) ≤ rhs) := by
  obtain ⟨f, hf, hn, he⟩ := normKept_ok ho fuel (compact ps cs).1 rhs
  refine ⟨f, hf, ?_, fun v => ?_⟩
  · refine hn.mono ?_ ?_
    · simp only [compact, absSum_nonzero]; exact Int.le_refl _
    · intro x hx
      obtain ⟨t, ht, rfl⟩ := List.mem_map.1 hx
      exact List.mem_map.2 ⟨t, List.mem_of_mem_filter ht, rfl⟩
  rw [he]
  simp only [compact, linSum_nonzero]

/-- the shape of a normalized constraint: a normalized `≤` constraint, or for `=` the conjunction of two of them -/
def NormalTop (cons : Bool) (B : Int) (V : List α) (f : Fm α) : Prop := Normal B V f ∨ ∃ a b, f = tAnd cons [a, b] ∧ Normal B V a ∧ Normal B V b

/-- C15: normalizing an inequality gives an equivalent constraint in normal form -/
theorem C15_normalize_ineq (cons : Bool) {ord : Terms α → Terms α} (ho : ∀ l, (ord l).Perm l) (fuel : Nat) (c : Cmp) (hc : c ≠ .eq) (rhs : Int) (ts : Terms α) :
    ∃ f, normalize cons ord (fuel + 2) c rhs ts = some f ∧ Normal (absSum ts) (ts.map (·.2.var)) f ∧ ∀ v, f.eval v = (Fm.pbc c rhs ts).eval v := by
  cases c with
  | eq => exact absurd rfl hc
  | le =>
    obtain ⟨f, hf, hn, he⟩ := normalizeLE_ok ho fuel (ts.map (·.2)) (ts.map (·.1)) rhs
    rw [zip_same] at hn
    exact ⟨f, hf, hn, fun v => by rw [he, zip_same]; simp [Fm.eval_pbc, Cmp.holds]⟩
  | lt =>
    obtain ⟨f, hf, hn, he⟩ := normalizeLE_ok ho fuel (ts.map (·.2)) (ts.map (·.1)) (rhs - 1)
    rw [zip_same] at hn
    exact ⟨f, hf, hn, fun v => by rw [he, zip_same]; simp only [Fm.eval_pbc, Cmp.holds, decide_eq_decide]; omega⟩
  | ge =>
    obtain ⟨f, hf, hn, he⟩ := normalizeLE_ok ho fuel (ts.map (·.2)) ((ts.map (·.1)).map (- ·)) (-rhs)
    rw [zip_neg, absSum_neg, List.map_map] at hn
    exact ⟨f, hf, hn, fun v => by rw [he, zip_neg, linSum_neg]; simp only [Fm.eval_pbc, Cmp.holds, decide_eq_decide]; omega⟩
  | gt =>
    obtain ⟨f, hf, hn, he⟩ := normalizeLE_ok ho fuel (ts.map (·.2)) ((ts.map (·.1)).map (- ·)) (-rhs - 1)
    rw [zip_neg, absSum_neg, List.map_map] at hn
    exact ⟨f, hf, hn, fun v => by rw [he, zip_neg, linSum_neg]; simp only [Fm.eval_pbc, Cmp.holds, decide_eq_decide]; omega⟩

/-- zero coefficients occur only at the end -/
def ZerosLast (ts : Terms α) : Prop := ∃ a b : Terms α, ts = a ++ b ∧ (∀ t ∈ a, t.1 ≠ 0) ∧ ∀ t ∈ b, t.1 = 0

theorem compact_zerosLast {ts : Terms α} (h : ZerosLast ts) : (compact (ts.map (·.2)) (ts.map (·.1))).2 = ts.map (·.2) := by
  obtain ⟨a, b, rfl, ha, hb⟩ := h
  simp only [compact, zip_same, List.filter_append]
  rw [List.filter_eq_self.2 (fun t ht => by simpa using ha t ht), List.filter_eq_nil_iff.2 (fun t ht => by simpa using hb t ht)]
  simp

/-- C15: normalizing any constraint gives an equivalent one in normal form, provided that in an equation no zero coefficient precedes a nonzero one.
Missing: equations with a zero coefficient before a nonzero one, for which the statement is false (`C15_eq_false`). -/
theorem C15_normalize_partial (cons : Bool) {ord : Terms α → Terms α} (ho : ∀ l, (ord l).Perm l) (fuel : Nat) (c : Cmp) (rhs : Int) (ts : Terms α)
    (hz : c = .eq → ZerosLast ts) :
    ∃ f, normalize cons ord (fuel + 2) c rhs ts = some f ∧ NormalTop cons (absSum ts) (ts.map (·.2.var)) f ∧ ∀ v, f.eval v = (Fm.pbc c rhs ts).eval v := by
  by_cases hc : c = .eq
  · subst hc
    obtain ⟨f, hf, hn, he⟩ := normalizeLE_ok ho fuel (ts.map (·.2)) (ts.map (·.1)) rhs
    obtain ⟨g, hg, hm, hd⟩ := normalizeLE_ok ho fuel (ts.map (·.2)) ((ts.map (·.1)).map (- ·)) (-rhs)
    have h2 : (normalizeLE ord (fuel + 2) (ts.map (·.2)) (ts.map (·.1)) rhs).2 = ts.map (·.2) := compact_zerosLast (hz rfl)
    rw [zip_same] at hn
    rw [zip_neg, absSum_neg, List.map_map] at hm
    refine ⟨tAnd cons [f, g], ?_, .inr ⟨f, g, rfl, hn, hm⟩, fun v => ?_⟩
    · simp only [normalize, hf, h2, hg]
    · rw [eval_tAnd]
      simp only [List.all_cons, List.all_nil, he, hd, zip_same, zip_neg, linSum_neg, Bool.and_true, Fm.eval_pbc, Cmp.holds]
      rw [Bool.eq_iff_iff]
      simp only [Bool.and_eq_true, decide_eq_true_iff]
      omega
  · obtain ⟨f, hf, hn, he⟩ := C15_normalize_ineq cons ho fuel c hc rhs ts
    exact ⟨f, hf, .inl hn, he⟩

example : ZerosLast [((2 : Int), (⟨0, true⟩ : Lit Nat)), (3, ⟨1, false⟩), (0, ⟨2, true⟩)] := ⟨[(2, ⟨0, true⟩), (3, ⟨1, false⟩)], [(0, ⟨2, true⟩)], rfl, by decide, by decide⟩
example : normalize true (id : Terms Nat → Terms Nat) 2 .le 2 [(2, ⟨0, true⟩), (-4, ⟨1, true⟩), (6, ⟨2, true⟩), (2, ⟨2, false⟩)] =
    some (.pbc .le 2 [(1, ⟨0, true⟩), (2, ⟨1, false⟩), (2, ⟨2, true⟩)]) := by decide +kernel

/-- C15 (negative): `0·a + 2·b + 3·c = 2` is normalized to a formula which is not equivalent -/
theorem C15_eq_false : ∃ f, normalize true (id : Terms Nat → Terms Nat) 2 .eq 2 [(0, ⟨0, true⟩), (2, ⟨1, true⟩), (3, ⟨2, true⟩)] = some f ∧
    ∃ v, f.eval v ≠ (Fm.pbc .eq 2 [(0, ⟨0, true⟩), (2, ⟨1, true⟩), (3, ⟨2, true⟩)]).eval v := by
  refine ⟨_, rfl, fun x => x == 1, ?_⟩
  decide +kernel

/-- C15: `NegatePBC` returns the negation -/
theorem C15_negate (cons : Bool) (c : Cmp) (rhs : Int) (ts : Terms α) (v : α → Bool) : (negatePBC cons c rhs ts).eval v = !(Fm.pbc c rhs ts).eval v := by
  cases c <;> simp only [negatePBC, eval_tPBC, eval_tOr, Fm.eval_pbc, Cmp.holds, List.any_cons, List.any_nil, Bool.or_false] <;>
    rw [Bool.eq_iff_iff] <;> simp only [Bool.or_eq_true, Bool.not_eq_true', decide_eq_true_iff, decide_eq_false_iff_not] <;> omega

example : (negatePBC true .eq 1 [(2, ⟨0, true⟩), (3, ⟨1, true⟩)] : Fm Nat).eval (fun _ => true) = true := by decide +kernel

end Verif.PB
