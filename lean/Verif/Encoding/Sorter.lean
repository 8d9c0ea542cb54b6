import Verif.Encoding.Network
/-! # Sorters of the cardinality networks -/
set_option linter.unusedSectionVars false
namespace Verif.Enc
open Verif
variable {α : Type}

/-- `cs` sorts the inputs `x` into `out` -/
structure SortSpec (d : Dir) (len : Nat) (x out : List (Lit (EV α))) (k k' : Nat) (cs : List (Clause α)) : Prop where
  le : k ≤ k'
  len : out.length = len
  outs : ∀ l ∈ out, l ∈ x ∨ New k k' l.var
  vars : ∀ c ∈ cs, ∀ l ∈ c, (∃ m ∈ x, m.var = l.var) ∨ New k k' l.var
  soundU : d.up = true → ∀ w, Sat w cs → UP w out (cnt w x)
  soundL : d.lo = true → ∀ w, Sat w cs → LO w out (cnt w x)
  complete : ∀ v, ∃ w, (∀ x, ¬New k k' x → w x = v x) ∧ Sat w cs ∧ Can w out (cnt v x)

/-! ### counter -/

theorem colOff_mono {n j j' : Nat} (h : j < j') : colOff n j + (n - j) ≤ colOff n j' := by
  induction j' with
  | zero => omega
  | succ i ih =>
    rw [colOff]
    by_cases h' : j = i
    · subst h'; omega
    · have := ih (by omega); omega

theorem colOff_inj {n i j i' j' : Nat} (hj : j ≤ i) (hi : i < n) (hj' : j' ≤ i') (hi' : i' < n) (h : colOff n j + (i - j) = colOff n j' + (i' - j')) : j = j' ∧ i = i' := by
  rcases Nat.lt_trichotomy j j' with h1 | h1 | h1
  · have := colOff_mono (n := n) h1; omega
  · subst h1; omega
  · have := colOff_mono (n := n) h1; omega

theorem cnt_take_succ (v : EV α → Bool) (x : List (Lit (EV α))) {i : Nat} {l : Lit (EV α)} (h : x[i]? = some l) : cnt v (x.take (i + 1)) = cnt v (x.take i) + (if l.eval v then 1 else 0) := by
  rw [List.take_add_one, h, cnt_append]
  simp [cnt_cons]

theorem counter_ok {m k : Nat} {x : List (Lit (EV α))} (hm : m ≤ x.length) (h0 : 0 < m) (ho : ∀ l ∈ x, Old k l) :
    SortSpec .io m x (counterSorter m k x).out k (counterSorter m k x).k (counterSorter m k x).cls := by
  have hnew : ∀ i j, j < m → j ≤ i → i < x.length → New k (k + colOff x.length m) (cv k x.length i j : Lit (EV α)).var := fun i j hj hji hi => by
    rw [cv, new_al]
    have := colOff_mono (n := x.length) hj
    omega
  have hneg : ∀ (i : Nat) (l : Lit (EV α)), some l = oneg x[i]? → ∃ m ∈ x, m.var = l.var := fun i l h => by
    obtain ⟨m, hm, e⟩ := oneg_var h.symm
    exact ⟨m, List.mem_of_getElem? hm, e⟩
  refine ⟨by simp [counterSorter], by simp [counterSorter], ?_, ?_, ?_, by simp [Dir.lo], ?_⟩
  · intro l hl
    simp only [counterSorter, List.mem_map, List.mem_range] at hl
    obtain ⟨j, hj, rfl⟩ := hl
    exact .inr (hnew _ _ hj (by omega) (by omega))
  · intro c hc l hl
    simp only [counterSorter, List.mem_append, List.mem_flatMap, List.mem_range] at hc
    rcases hc with ⟨i, hi, hc | hc⟩ | ⟨j, hj, i, hi, hc | hc⟩
    · have := ocl_mem hc l hl
      simp only [List.mem_cons, List.not_mem_nil, or_false, Option.some.injEq] at this
      rcases this with h | rfl
      · exact .inl (hneg _ _ h)
      · exact .inr (hnew _ _ h0 (by omega) hi)
    · split at hc
      · simp at hc; subst hc
        simp at hl
        rcases hl with rfl | rfl
        · exact .inr (hnew (i - 1) 0 h0 (by omega) (by omega))
        · exact .inr (hnew i 0 h0 (by omega) (by omega))
      · simp at hc
    · have := ocl_mem hc l hl
      simp only [List.mem_cons, List.not_mem_nil, or_false, Option.some.injEq] at this
      rcases this with h | rfl | rfl
      · exact .inl (hneg _ _ h)
      · exact .inr (hnew (j + 1 + i - 1) (j + 1 - 1) (by omega) (by omega) (by omega))
      · exact .inr (hnew (j + 1 + i) (j + 1) (by omega) (by omega) (by omega))
    · split at hc
      · simp only [List.mem_singleton] at hc; subst hc
        simp only [List.mem_cons, List.not_mem_nil, or_false] at hl
        rcases hl with rfl | rfl
        · exact .inr (hnew (j + 1 + i - 1) (j + 1) (by omega) (by omega) (by omega))
        · exact .inr (hnew (j + 1 + i) (j + 1) (by omega) (by omega) (by omega))
      · simp at hc
  · intro _ w hs
    simp only [counterSorter, sat_append, sat_flatMap, List.mem_range] at hs
    obtain ⟨s0, s1⟩ := hs
    have key : ∀ i j, i < x.length → j < m → j ≤ i → j < cnt w (x.take (i + 1)) → (cv k x.length i j : Lit (EV α)).eval w = true := by
      intro i
      induction i with
      | zero =>
        intro j hi hj hji hc
        have hj0 : j = 0 := by omega
        subst hj0
        have h := (s0 0 hi).1
        obtain ⟨l, hl⟩ : ∃ l, x[0]? = some l := ⟨_, List.getElem?_eq_getElem hi⟩
        rw [cnt_take_succ w x hl] at hc
        refine ocl_elim h _ fun o ho' => ?_
        simp only [List.mem_cons, List.not_mem_nil, or_false] at ho'
        rcases ho' with rfl | rfl
        · left
          refine TL.neg ⟨l, hl, ?_⟩
          cases e : l.eval w
          · simp [e] at hc
          · rfl
        · exact .inr ⟨_, rfl, id⟩
      | succ i ih =>
        intro j hi hj hji hc
        obtain ⟨l, hl⟩ : ∃ l, x[i + 1]? = some l := ⟨_, List.getElem?_eq_getElem hi⟩
        rw [cnt_take_succ w x hl] at hc
        cases e : l.eval w with
        | false =>
          rw [e] at hc
          simp only [Bool.false_eq_true, if_false, Nat.add_zero] at hc
          have hle := cnt_le w (x.take (i + 1))
          rw [List.length_take] at hle
          have hprev := ih j (by omega) hj (by omega) hc
          have hcl : (∃ l ∈ [(cv k x.length i j : Lit (EV α)).neg, cv k x.length (i + 1) j], l.eval w = true) := by
            by_cases hj0 : j = 0
            · subst hj0
              have h := (s0 (i + 1) hi).2
              rw [if_pos (by omega), sat_cons] at h
              exact h.1
            · have h := (s1 (j - 1) (by omega) (i + 1 - j) (by omega)).2
              rw [show j - 1 + 1 = j by omega, show j + (i + 1 - j) = i + 1 by omega, if_pos (by omega), sat_cons] at h
              exact h.1
          obtain ⟨l', hl', e'⟩ := hcl
          simp only [List.mem_cons, List.not_mem_nil, or_false] at hl'
          rcases hl' with rfl | rfl
          · rw [Lit.eval_neg, hprev] at e'; simp at e'
          · exact e'
        | true =>
          rw [e] at hc
          simp only [if_true] at hc
          by_cases hj0 : j = 0
          · subst hj0
            have h := (s0 (i + 1) hi).1
            refine ocl_elim h _ fun o ho' => ?_
            simp only [List.mem_cons, List.not_mem_nil, or_false] at ho'
            rcases ho' with rfl | rfl
            · exact .inl (TL.neg ⟨l, hl, e⟩)
            · exact .inr ⟨_, rfl, id⟩
          · have hprev := ih (j - 1) (by omega) (by omega) (by omega) (by omega)
            have h := (s1 (j - 1) (by omega) (i + 1 - j) (by omega)).1
            rw [show j - 1 + 1 = j by omega, show j + (i + 1 - j) = i + 1 by omega, Nat.add_sub_cancel] at h
            refine ocl_elim h _ fun o ho' => ?_
            simp only [List.mem_cons, List.not_mem_nil, or_false] at ho'
            rcases ho' with rfl | rfl | rfl
            · exact .inl (TL.neg ⟨l, hl, e⟩)
            · exact .inl ⟨_, rfl, by rw [Lit.eval_neg, hprev]; rfl⟩
            · exact .inr ⟨_, rfl, id⟩
    intro t o ht hlt
    simp only [counterSorter, List.getElem?_map, Option.map_eq_some_iff] at ht
    obtain ⟨t', ht', rfl⟩ := ht
    rw [List.getElem?_eq_some_iff] at ht'
    obtain ⟨h1, h2⟩ := ht'
    simp at h1 h2
    subst h2
    exact key _ _ (by omega) h1 (by omega) (by rw [List.take_of_length_le (by omega)]; exact hlt)
  · intro v
    classical
    let g : Nat → Bool := fun o => decide (∃ i j, j < m ∧ j ≤ i ∧ i < x.length ∧ colOff x.length j + (i - j) = o ∧ j < cnt v (x.take (i + 1)))
    let w := setNew v k (k + colOff x.length m) g
    have hw : ∀ y, ¬New k (k + colOff x.length m) y → w y = v y := fun y hy => setNew_off hy
    have hcv : ∀ i j, j < m → j ≤ i → i < x.length → (cv k x.length i j : Lit (EV α)).eval w = decide (j < cnt v (x.take (i + 1))) := fun i j hj hji hi => by
      have hb := colOff_mono (n := x.length) hj
      rw [cv, al_eval, Nat.add_assoc]
      show setNew v k (k + colOff x.length m) g (.aux (k + (colOff x.length j + (i - j)))) = _
      rw [setNew_on (by omega)]
      show decide _ = decide _
      rw [decide_eq_decide]
      constructor
      · rintro ⟨i', j', a, b, c, d, e⟩
        obtain ⟨rfl, rfl⟩ := colOff_inj b c hji hi d
        exact e
      · intro h; exact ⟨i, j, hj, hji, hi, rfl, h⟩
    have hx : ∀ l ∈ x, l.eval w = l.eval v := fun l hl => eval_congr_var (hw _ ((ho l hl).not_new (Nat.le_refl _)))
    refine ⟨w, hw, ?_, ?_⟩
    · simp only [counterSorter, sat_append, sat_flatMap, List.mem_range]
      have hstep : ∀ i, i < x.length → ∃ l, x[i]? = some l ∧ cnt v (x.take (i + 1)) = cnt v (x.take i) + (if l.eval v then 1 else 0) := fun i hi =>
        ⟨_, List.getElem?_eq_getElem hi, cnt_take_succ v x (List.getElem?_eq_getElem hi)⟩
      constructor
      · intro i hi
        obtain ⟨l, hl, hc⟩ := hstep i hi
        constructor
        · cases e : l.eval v with
          | false => exact sat_ocl_of ⟨_, List.mem_cons_self, oneg_true fun m' hm' => by rw [hl] at hm'; cases hm'; rw [hx l (List.mem_of_getElem? hl)]; exact e⟩
          | true => exact sat_ocl_of ⟨some (cv k x.length i 0), by simp, fun l' hl' => by cases hl'; rw [hcv i 0 h0 (by omega) hi, hc, e]; simp⟩
        · split
          · rw [sat_cons]
            refine ⟨?_, by simp⟩
            by_cases hz : 0 < cnt v (x.take i)
            · exact ⟨cv k x.length i 0, by simp, by rw [hcv i 0 h0 (by omega) hi, hc]; simp; omega⟩
            · refine ⟨(cv k x.length (i - 1) 0).neg, by simp, ?_⟩
              rw [Lit.eval_neg, hcv (i - 1) 0 h0 (by omega) (by omega), show i - 1 + 1 = i by omega]
              simp; omega
          · simp
      · intro j hj i hi
        have hi' : j + 1 + i < x.length := by omega
        obtain ⟨l, hl, hc⟩ := hstep (j + 1 + i) hi'
        constructor
        · cases e : l.eval v with
          | false => exact sat_ocl_of ⟨_, List.mem_cons_self, oneg_true fun m' hm' => by rw [hl] at hm'; cases hm'; rw [hx l (List.mem_of_getElem? hl)]; exact e⟩
          | true =>
            by_cases hz : j < cnt v (x.take (j + 1 + i))
            · refine sat_ocl_of ⟨some (cv k x.length (j + 1 + i) (j + 1)), by simp, fun l' hl' => ?_⟩
              cases hl'; rw [hcv _ _ (by omega) (by omega) hi', hc, e]; simp; omega
            · refine sat_ocl_of ⟨some (cv k x.length (j + 1 + i - 1) (j + 1 - 1)).neg, by simp, fun l' hl' => ?_⟩
              cases hl'
              rw [Lit.eval_neg, hcv _ _ (by omega) (by omega) (by omega), show j + 1 + i - 1 + 1 = j + 1 + i by omega]
              simp only [Nat.add_sub_cancel]
              simpa using hz
        · split
          · rw [sat_cons]
            refine ⟨?_, by simp⟩
            by_cases hz : j + 1 < cnt v (x.take (j + 1 + i))
            · exact ⟨cv k x.length (j + 1 + i) (j + 1), by simp, by rw [hcv _ _ (by omega) (by omega) hi', hc]; simp; omega⟩
            · refine ⟨(cv k x.length (j + 1 + i - 1) (j + 1)).neg, by simp, ?_⟩
              rw [Lit.eval_neg, hcv _ _ (by omega) (by omega) (by omega), show j + 1 + i - 1 + 1 = j + 1 + i by omega]
              simp; omega
          · simp
    · intro t o ht
      simp only [counterSorter, List.getElem?_map, Option.map_eq_some_iff] at ht
      obtain ⟨t', ht', rfl⟩ := ht
      rw [List.getElem?_eq_some_iff] at ht'
      obtain ⟨h1, h2⟩ := ht'
      simp at h1 h2
      subst h2
      rw [hcv _ _ h1 (by omega) (by omega), List.take_of_length_le (by omega)]

/-! ### direct -/

theorem selBits_nil (mask : Nat) : selBits mask ([] : List (Lit (EV α))) = [] := rfl
theorem selBits_cons (mask : Nat) (b : Bool) (a : Lit (EV α)) (x : List (Lit (EV α))) :
    selBits (2 * mask + b.toNat) (a :: x) = (if b then [a] else []) ++ selBits mask x := by
  have h0 : (2 * mask + b.toNat).testBit 0 = b := by rw [Nat.testBit_zero]; cases b <;> simp <;> omega
  have hs : ∀ i, (2 * mask + b.toNat).testBit (i + 1) = mask.testBit i := fun i => by
    rw [Nat.testBit_succ]; congr 1; cases b <;> simp <;> omega
  unfold selBits
  rw [List.zipIdx_cons, List.filter_cons, h0]
  have : List.map (·.1) (List.filter (fun p : Lit (EV α) × Nat => (2 * mask + b.toNat).testBit p.2) (x.zipIdx (0 + 1))) = List.map (·.1) (List.filter (fun p => mask.testBit p.2) x.zipIdx) := by
    rw [List.zipIdx_succ, List.filter_map, List.map_map]
    congr 1
    apply List.filter_congr
    intro p _
    simp [hs]
  cases b
  · simpa using this
  · simpa using this

theorem selBits_sub : ∀ (x : List (Lit (EV α))) (mask : Nat), (selBits mask x).Sublist x
  | [], mask => by rw [selBits_nil]; exact List.Sublist.refl _
  | a :: x, mask => by
    have h := selBits_cons (mask / 2) (mask % 2 == 1) a x
    rw [show 2 * (mask / 2) + (mask % 2 == 1).toNat = mask by
      rcases Nat.mod_two_eq_zero_or_one mask with e | e <;> simp [e] <;> omega] at h
    rw [h]
    split
    · exact (selBits_sub x _).cons_cons a
    · exact (selBits_sub x _).cons a

theorem selBits_ne : ∀ (x : List (Lit (EV α))) (mask : Nat), mask ≠ 0 → mask < 2 ^ x.length → 0 < (selBits mask x).length
  | [], mask, h0, h => by simp at h; omega
  | a :: x, mask, h0, h => by
    have hc := selBits_cons (mask / 2) (mask % 2 == 1) a x
    rw [show 2 * (mask / 2) + (mask % 2 == 1).toNat = mask by
      rcases Nat.mod_two_eq_zero_or_one mask with e | e <;> simp [e] <;> omega] at hc
    rw [hc]
    split
    · simp
    · next he =>
      rw [List.length_cons, Nat.pow_succ] at h
      simp at he
      have := selBits_ne x (mask / 2) (by omega) (by omega)
      simpa using this

theorem selBits_exists (w : EV α → Bool) : ∀ (x : List (Lit (EV α))) (t : Nat), t ≤ cnt w x → ∃ mask, mask < 2 ^ x.length ∧ (selBits mask x).length = t ∧ ∀ l ∈ selBits mask x, l.eval w = true
  | [], t, h => ⟨0, by simp, by simp at h; simp [selBits_nil, h], by simp [selBits_nil]⟩
  | a :: x, t, h => by
    rw [cnt_cons] at h
    by_cases hc : a.eval w = true ∧ 0 < t
    · rw [if_pos hc.1] at h
      obtain ⟨mask, h1, h2, h3⟩ := selBits_exists w x (t - 1) (by omega)
      refine ⟨2 * mask + true.toNat, by rw [List.length_cons, Nat.pow_succ]; simp; omega, ?_, ?_⟩
      · rw [selBits_cons]; simp; omega
      · rw [selBits_cons]
        intro l hl
        simp at hl
        rcases hl with rfl | hl
        · exact hc.1
        · exact h3 l hl
    · obtain ⟨mask, h1, h2, h3⟩ := selBits_exists w x t (by
        by_cases e : a.eval w = true
        · have : t = 0 := by by_contra h'; exact hc ⟨e, by omega⟩
          omega
        · rw [if_neg e] at h; omega)
      refine ⟨2 * mask + false.toNat, by rw [List.length_cons, Nat.pow_succ]; simp; omega, ?_, ?_⟩
      · rw [selBits_cons]; simpa using h2
      · rw [selBits_cons]; simpa using h3

theorem flatten_nil (junk : Nat) : (List.replicate junk ([] : Clause α)).flatten = [] := by
  induction junk with
  | zero => rfl
  | succ n ih => rw [List.replicate_succ, List.flatten_cons, ih]; rfl
theorem directLoop_sat {w : EV α → Bool} {m : Nat} {x outs : List (Lit (EV α))} : ∀ {masks : List Nat} {junk : Nat},
    Sat w (directLoop [] m x outs junk masks) ↔ ∀ mask ∈ masks, (selBits mask x).length ≤ m → Sat w (ocl ((selBits mask x).map (fun l => some l.neg) ++ [outs[(selBits mask x).length - 1]?]))
  | [], junk => by simp [directLoop]
  | mask :: ms, junk => by
    rw [directLoop]
    have hz := flatten_nil (α := α) junk
    split
    · next h =>
      rw [sat_append, directLoop_sat, hz]
      simp only [List.nil_append, List.map_map, List.forall_mem_cons, h, forall_const]
      exact Iff.rfl
    · next h =>
      rw [directLoop_sat]
      simp [h]
theorem directLoop_mem {m : Nat} {x outs : List (Lit (EV α))} {c : Clause α} : ∀ {masks : List Nat} {junk : Nat},
    c ∈ directLoop [] m x outs junk masks → ∃ mask ∈ masks, c ∈ ocl ((selBits mask x).map (fun l => some l.neg) ++ [outs[(selBits mask x).length - 1]?])
  | [], junk, h => by simp [directLoop] at h
  | mask :: ms, junk, h => by
    rw [directLoop] at h
    have hz := flatten_nil (α := α) junk
    rw [hz] at h
    split at h
    · rcases List.mem_append.1 h with h | h
      · refine ⟨mask, by simp, ?_⟩
        simp only [List.nil_append, List.map_map] at h
        exact h
      · obtain ⟨m', h1, h2⟩ := directLoop_mem h
        exact ⟨m', by simp [h1], h2⟩
    · obtain ⟨m', h1, h2⟩ := directLoop_mem h
      exact ⟨m', by simp [h1], h2⟩

theorem direct_ok {m k : Nat} {x : List (Lit (EV α))} (ho : ∀ l ∈ x, Old k l) :
    SortSpec .io m x (directSorter [] m k x).out k (directSorter [] m k x).k (directSorter [] m k x).cls := by
  refine ⟨by simp [directSorter], by simp [directSorter], ?_, ?_, ?_, by simp [Dir.lo], ?_⟩
  · intro l hl
    obtain ⟨i, hi, rfl⟩ := mem_auxs.1 hl
    right; rw [new_al]; simp only [directSorter]; omega
  · intro c hc l hl
    obtain ⟨mask, _, hc⟩ := directLoop_mem hc
    have := ocl_mem hc l hl
    simp only [List.mem_append, List.mem_map, List.mem_singleton, Option.some.injEq] at this
    rcases this with ⟨a, ha, rfl⟩ | h
    · exact .inl ⟨a, (selBits_sub x mask).subset ha, rfl⟩
    · obtain ⟨h1, rfl⟩ := auxs_get.1 h.symm
      right; rw [new_al]; simp only [directSorter]; omega
  · intro _ w hs t o ht hlt
    have hs := directLoop_sat.1 hs
    have htm : t < m := (auxs_get.1 ht).1
    obtain ⟨mask, h1, h2, h3⟩ := selBits_exists w x (t + 1) (by omega)
    have hm0 : mask ≠ 0 := by
      rintro rfl
      have : selBits 0 x = [] := by simp [selBits]
      rw [this] at h2; simp at h2
    have h := hs mask (by simp only [List.mem_map, List.mem_range]; exact ⟨mask - 1, by omega, by omega⟩) (by omega)
    refine ocl_elim h _ fun o' ho' => ?_
    simp only [List.mem_append, List.mem_map, List.mem_singleton] at ho'
    rcases ho' with ⟨a, ha, rfl⟩ | rfl
    · exact .inl ⟨_, rfl, by rw [Lit.eval_neg, h3 a ha]; rfl⟩
    · refine .inr ⟨o, ?_, id⟩
      rw [h2]; exact ht
  · intro v
    let w := setNew v k (k + m) (fun i => decide (i < cnt v x))
    have hw : ∀ y, ¬New k (k + m) y → w y = v y := fun y hy => setNew_off hy
    have hO : Can w (auxs k m) (cnt v x) := can_auxs fun i hi => setNew_on (by omega)
    refine ⟨w, hw, ?_, hO⟩
    apply directLoop_sat.2
    intro mask hmask hlen
    simp only [List.mem_map, List.mem_range] at hmask
    obtain ⟨q, hq, rfl⟩ := hmask
    have hpos := selBits_ne x (q + 1) (by omega) (by omega)
    by_cases hall : ∀ l ∈ selBits (q + 1) x, l.eval v = true
    · refine sat_ocl_of ⟨_, List.mem_append_right _ (List.mem_singleton.2 rfl), fun l hl => ?_⟩
      rw [hO _ _ hl]
      have h1 : cnt v (selBits (q + 1) x) ≤ cnt v x := (selBits_sub x (q + 1)).countP_le
      have h2 : cnt v (selBits (q + 1) x) = (selBits (q + 1) x).length := List.countP_eq_length.2 hall
      simp; omega
    · obtain ⟨l, hl⟩ := Classical.not_forall.1 hall
      obtain ⟨hl, he⟩ := Classical.not_imp.1 hl
      refine sat_ocl_of ⟨some l.neg, List.mem_append_left _ (List.mem_map.2 ⟨l, hl, rfl⟩), fun l' hl' => ?_⟩
      cases hl'
      rw [Lit.eval_neg, eval_congr_var (hw _ ((ho l ((selBits_sub x _).subset hl)).not_new (Nat.le_refl _)))]
      simpa using he

/-! ### sort -/

theorem sort_ok (d : Dir) : ∀ (N m k : Nat) (x : List (Lit (EV α))), x.length ≤ N → 0 < m → (∀ l ∈ x, Old k l) →
    SortSpec d (min m x.length) x (sort [] d m k x).out k (sort [] d m k x).k (sort [] d m k x).cls := by
  intro N
  induction N with
  | zero =>
    intro m k x hN hm ho
    obtain rfl : x = [] := List.eq_nil_of_length_eq_zero (by omega)
    rw [sort.eq_def, if_neg (by omega)]
    exact ⟨Nat.le_refl _, by simp, by simp, by simp, fun _ _ _ => up_nil, fun _ _ _ => lo_nil, fun v => ⟨v, fun _ _ => rfl, by simp, can_of up_nil lo_nil⟩⟩
  | succ N ih =>
    intro m k x hN hm ho
    rw [sort.eq_def, if_neg (by omega)]
    match x, hN, ho with
    | [], hN, ho =>
      exact ⟨Nat.le_refl _, by simp, by simp, by simp, fun _ _ _ => up_nil, fun _ _ _ => lo_nil, fun v => ⟨v, fun _ _ => rfl, by simp, can_of up_nil lo_nil⟩⟩
    | [a], hN, ho =>
      exact ⟨Nat.le_refl _, by simp; omega, fun l hl => .inl hl, by simp, fun _ w _ => (can_single w a).up, fun _ w _ => (can_single w a).lo,
        fun v => ⟨v, fun _ _ => rfl, by simp, can_single v a⟩⟩
    | [a, b], hN, ho =>
      have oa : Old k a := ho a (by simp)
      have ob : Old k b := ho b (by simp)
      have hcn : ∀ w, cnt w [a, b] = (if a.eval w then 1 else 0) + (if b.eval w then 1 else 0) := fun w => by simp [cnt_cons]
      simp only
      split
      · next h2 =>
        refine ⟨by simp, by simpa using h2.symm, ?_, ?_, ?_, ?_, ?_⟩
        · intro l hl
          simp at hl
          right
          rcases hl with rfl | rfl <;> rw [new_al] <;> dsimp only <;> omega
        · intro cl hcl l hl
          rcases comp4_vars hcl hl with h | h | h | h
          · exact .inl ⟨a, by simp, h.symm⟩
          · exact .inl ⟨b, by simp, h.symm⟩
          · right; rw [h, new_al]; dsimp only; omega
          · right; rw [h, new_al]; dsimp only; omega
        · intro hd w hs
          obtain ⟨c1, c2⟩ := comp4_up hd hs
          rw [hcn, up_cons, up_cons]
          refine ⟨fun h => c1 ?_, fun h => ?_, up_nil⟩
          · cases ea : a.eval w <;> cases eb : b.eval w <;> simp [ea, eb] at h ⊢
          · cases ea : a.eval w <;> cases eb : b.eval w <;> simp [ea, eb] at h c2 ⊢
            exact c2
        · intro hd w hs
          obtain ⟨c1, c2⟩ := comp4_lo hd hs
          rw [hcn, lo_cons, lo_cons]
          refine ⟨fun h => ?_, fun h => ?_, lo_nil⟩
          · rcases c1 h with h | h <;> simp [h]
          · simp [(c2 h).1, (c2 h).2]
        · intro v
          let w := setNew v k (k + 2) (fun i => if i = 0 then a.eval v || b.eval v else a.eval v && b.eval v)
          have hw : ∀ x, ¬New k (k + 2) x → w x = v x := fun x hx => setNew_off hx
          have e1 : w (.aux k) = (a.eval v || b.eval v) := by
            have := setNew_on (v := v) (k := k) (k' := k + 2) (g := fun i => if i = 0 then a.eval v || b.eval v else a.eval v && b.eval v) (i := 0) (by omega); simpa using this
          have e2 : w (.aux (k + 1)) = (a.eval v && b.eval v) := by
            have := setNew_on (v := v) (k := k) (k' := k + 2) (g := fun i => if i = 0 then a.eval v || b.eval v else a.eval v && b.eval v) (i := 1) (by omega); simpa using this
          have ea := eval_congr_var (hw _ (oa.not_new (Nat.le_refl _)))
          have eb := eval_congr_var (hw _ (ob.not_new (Nat.le_refl _)))
          refine ⟨w, hw, comp4_can (by rw [al_eval, e1, ea, eb]) (by rw [al_eval, e2, ea, eb]), ?_⟩
          intro i l hl
          rw [hcn]
          match i with
          | 0 => cases hl; rw [al_eval, e1]; cases a.eval v <;> cases b.eval v <;> simp
          | 1 => cases hl; rw [al_eval, e2]; cases a.eval v <;> cases b.eval v <;> simp
          | i + 2 => simp at hl
      · next h2 =>
        have hm1 : m = 1 := by omega
        refine ⟨by simp, by simp [hm1], ?_, ?_, ?_, ?_, ?_⟩
        · intro l hl
          simp at hl
          right; subst hl; rw [new_al]; dsimp only; omega
        · intro cl hcl l hl
          rcases comp3_vars hcl hl with h | h | h
          · exact .inl ⟨a, by simp, h.symm⟩
          · exact .inl ⟨b, by simp, h.symm⟩
          · right; rw [h, new_al]; dsimp only; omega
        · intro hd w hs
          have c1 := comp3_up hd hs
          rw [hcn, up_cons]
          refine ⟨fun h => c1 ?_, up_nil⟩
          cases ea : a.eval w <;> cases eb : b.eval w <;> simp [ea, eb] at h ⊢
        · intro hd w hs
          have c1 := comp3_lo hd hs
          rw [hcn, lo_cons]
          refine ⟨fun h => ?_, lo_nil⟩
          rcases c1 h with h | h <;> simp [h]
        · intro v
          let w := setNew v k (k + 1) (fun _ => a.eval v || b.eval v)
          have hw : ∀ x, ¬New k (k + 1) x → w x = v x := fun x hx => setNew_off hx
          have e1 : w (.aux k) = (a.eval v || b.eval v) := by
            have := setNew_on (v := v) (k := k) (k' := k + 1) (g := fun _ => a.eval v || b.eval v) (i := 0) (by omega); simpa using this
          have ea := eval_congr_var (hw _ (oa.not_new (Nat.le_refl _)))
          have eb := eval_congr_var (hw _ (ob.not_new (Nat.le_refl _)))
          refine ⟨w, hw, comp3_can (by rw [al_eval, e1, ea, eb]), ?_⟩
          intro i l hl
          rw [hcn]
          match i with
          | 0 => cases hl; rw [al_eval, e1]; cases a.eval v <;> cases b.eval v <;> simp
          | i + 1 => simp at hl
    | a :: b :: c :: r, hN, ho =>
      simp only
      generalize hx : a :: b :: c :: r = x at *
      have hlen : 3 ≤ x.length := by rw [← hx]; simp
      split
      · next hd =>
        subst hd
        split
        · exact counter_ok (Nat.min_le_right _ _) (by omega) ho
        · exact direct_ok ho
      · next hd =>
        have IA := ih (min m x.length) k (x.take (x.length / 2)) (by rw [List.length_take]; omega) (by omega) (fun l hl => ho l (List.mem_of_mem_take hl))
        generalize sort [] d (min m x.length) k (x.take (x.length / 2)) = A at *
        have hA := IA.le
        have IB := ih (min m x.length) A.k (x.drop (x.length / 2)) (by rw [List.length_drop]; omega) (by omega) (fun l hl => (ho l (List.mem_of_mem_drop hl)).mono hA)
        generalize sort [] d (min m x.length) A.k (x.drop (x.length / 2)) = B at *
        have hB := IB.le
        have lA := IA.len
        have lB := IB.len
        rw [List.length_take] at lA
        rw [List.length_drop] at lB
        have oldA : ∀ l ∈ A.out, Old A.k l := fun l hl => by
          rcases IA.outs l hl with h | ⟨n, e, h1, h2⟩
          · exact (ho l (List.mem_of_mem_take h)).mono hA
          · intro n' e'; rw [e] at e'; cases e'; exact h2
        have oldB : ∀ l ∈ B.out, Old B.k l := fun l hl => by
          rcases IB.outs l hl with h | ⟨n, e, h1, h2⟩
          · exact (ho l (List.mem_of_mem_drop h)).mono (by omega)
          · intro n' e'; rw [e] at e'; cases e'; exact h2
        have IM := merge_ok d _ (min m x.length) B.k A.out B.out (Nat.le_refl _) (by omega) (by omega) (by omega)
          (fun l hl => by
            rcases List.mem_append.1 hl with h | h
            · exact (oldA l h).mono hB
            · exact oldB l h)
        generalize merge d (min m x.length) B.k A.out B.out = M at *
        have hM := IM.le
        have lM := IM.len
        have hcnt : ∀ w, cnt w x = cnt w (x.take (x.length / 2)) + cnt w (x.drop (x.length / 2)) := fun w => by rw [← cnt_append, List.take_append_drop]
        have vA : ∀ l ∈ A.out, l ∈ x ∨ New k M.k l.var := fun l hl => by
          rcases IA.outs l hl with h | h
          · exact .inl (List.mem_of_mem_take h)
          · exact .inr (h.mono (Nat.le_refl _) (by omega))
        have vB : ∀ l ∈ B.out, l ∈ x ∨ New k M.k l.var := fun l hl => by
          rcases IB.outs l hl with h | h
          · exact .inl (List.mem_of_mem_drop h)
          · exact .inr (h.mono hA hM)
        refine ⟨by dsimp only; omega, by rw [lM, lA, lB]; omega, ?_, ?_, ?_, ?_, ?_⟩
        · intro l hl
          rcases IM.outs l hl with h | h
          · rcases List.mem_append.1 h with h | h
            · exact vA l h
            · exact vB l h
          · exact .inr (h.mono (by omega) (Nat.le_refl _))
        · intro cl hcl l hl
          simp only [List.mem_append] at hcl
          rcases hcl with (hcl | hcl) | hcl
          · rcases IA.vars cl hcl l hl with ⟨y, hy, e⟩ | h
            · exact .inl ⟨y, List.mem_of_mem_take hy, e⟩
            · exact .inr (h.mono (Nat.le_refl _) (by dsimp only; omega))
          · rcases IB.vars cl hcl l hl with ⟨y, hy, e⟩ | h
            · exact .inl ⟨y, List.mem_of_mem_drop hy, e⟩
            · exact .inr (h.mono hA hM)
          · rcases IM.vars cl hcl l hl with ⟨y, hy, e⟩ | h
            · rw [← e]
              have : y ∈ x ∨ New k M.k y.var := by
                rcases List.mem_append.1 hy with h | h
                · exact vA y h
                · exact vB y h
              rcases this with h | h
              · exact .inl ⟨y, h, rfl⟩
              · exact .inr h
            · exact .inr (h.mono (by omega) (Nat.le_refl _))
        · intro hd w hs
          simp only [sat_append] at hs
          have u := IM.soundU hd w (min (cnt w (x.take (x.length / 2))) A.out.length) (min (cnt w (x.drop (x.length / 2))) B.out.length) ⟨Nat.min_le_right _ _, Nat.min_le_right _ _⟩ hs.2
            ((IA.soundU hd w hs.1.1).mono (Nat.min_le_left _ _)) ((IB.soundU hd w hs.1.2).mono (Nat.min_le_left _ _))
          rw [hcnt]
          have b1 := cnt_le w (x.take (x.length / 2))
          have b2 := cnt_le w (x.drop (x.length / 2))
          rw [List.length_take] at b1
          rw [List.length_drop] at b2
          exact up_len u (by rw [lM]; omega)
        · intro hd w hs
          simp only [sat_append] at hs
          have u := IM.soundL hd w (min (cnt w (x.take (x.length / 2))) A.out.length) (min (cnt w (x.drop (x.length / 2))) B.out.length) ⟨Nat.min_le_right _ _, Nat.min_le_right _ _⟩ hs.2
            (lo_len (IA.soundL hd w hs.1.1) (Nat.le_refl _)) (lo_len (IB.soundL hd w hs.1.2) (Nat.le_refl _))
          rw [hcnt]
          exact lo_len u (by omega)
        · intro v
          obtain ⟨w1, hw1, s1, c1⟩ := IA.complete v
          obtain ⟨w2, hw2, s2, c2⟩ := IB.complete w1
          have e2 : cnt w1 (x.drop (x.length / 2)) = cnt v (x.drop (x.length / 2)) := cnt_congr fun l hl => hw1 _ ((ho l (List.mem_of_mem_drop hl)).not_new (Nat.le_refl _))
          rw [e2] at c2
          have c1' : Can w2 A.out (cnt v (x.take (x.length / 2))) := (can_congr fun l hl => hw2 _ ((oldA l hl).not_new (Nat.le_refl _))).2 c1
          obtain ⟨w3, hw3, s3, c3⟩ := IM.complete w2 (min (cnt v (x.take (x.length / 2))) A.out.length) (min (cnt v (x.drop (x.length / 2))) B.out.length) ⟨Nat.min_le_right _ _, Nat.min_le_right _ _⟩
            (can_len c1' (by simp)) (can_len c2 (by simp))
          refine ⟨w3, fun y hy => ?_, ?_, ?_⟩
          · rw [hw3 y fun h => hy (h.mono (by omega) (Nat.le_refl _)), hw2 y fun h => hy (h.mono hA hM), hw1 y fun h => hy (h.mono (Nat.le_refl _) (by dsimp only; omega))]
          · simp only [sat_append]
            have t1 : Sat w3 A.cls := (sat_congr fun cl hcl l hl => by
              rcases IA.vars cl hcl l hl with ⟨y, hy, e⟩ | ⟨n, e, a, b⟩
              · rw [← e]
                have o := ho y (List.mem_of_mem_take hy)
                rw [hw3 _ (o.not_new (by omega)), hw2 _ (o.not_new (by omega))]
              · rw [e, hw3 _ (by rintro ⟨n', e', a', b'⟩; cases e'; omega), hw2 _ (by rintro ⟨n', e', a', b'⟩; cases e'; omega)]).2 s1
            have t2 : Sat w3 B.cls := (sat_congr fun cl hcl l hl => by
              rcases IB.vars cl hcl l hl with ⟨y, hy, e⟩ | ⟨n, e, a, b⟩
              · rw [← e]
                have o := ho y (List.mem_of_mem_drop hy)
                rw [hw3 _ (o.not_new (by omega))]
              · rw [e, hw3 _ (by rintro ⟨n', e', a', b'⟩; cases e'; omega)]).2 s2
            exact ⟨⟨t1, t2⟩, s3⟩
          · rw [hcnt]
            have b1 := cnt_le v (x.take (x.length / 2))
            have b2 := cnt_le v (x.drop (x.length / 2))
            rw [List.length_take] at b1
            rw [List.length_drop] at b2
            exact can_len c3 (by rw [lM]; omega)

end Verif.Enc
