import Verif.Encoding.AmoLemmas
import Mathlib.Tactic.Linarith
import Mathlib.Tactic.Ring
import Mathlib.Tactic.IntervalCases
/-! # Product, nested and commander encodings -/
set_option linter.unusedSectionVars false
namespace Verif.Enc
open Verif
variable {α : Type}

theorem getD_lt {β : Type} {l : List β} {i : Nat} (d : β) (h : i < l.length) : l.getD i d = l[i] := by
  rw [List.getD_eq_getElem?_getD, List.getElem?_eq_getElem h]; rfl

/-! ### amoProduct -/

theorem ceilSqrt_sq (n : Nat) : n ≤ ceilSqrt n * ceilSqrt n := by
  unfold ceilSqrt
  split
  · omega
  · have := Nat.sqrt_lt_self (n := n); have h := Nat.lt_succ_sqrt n; simp only [Nat.succ_eq_add_one] at h; omega
theorem ceilSqrt_pos {n : Nat} (h : 0 < n) : 0 < ceilSqrt n := by
  have := ceilSqrt_sq n
  by_contra hc
  have : ceilSqrt n = 0 := by omega
  simp_all
theorem ceilSqrt_le {n : Nat} : ceilSqrt n ≤ n := by
  unfold ceilSqrt
  split
  · exact Nat.sqrt_le_self n
  · rename_i h
    rcases Nat.lt_or_ge (Nat.sqrt n) n with h' | h'
    · omega
    · have h2 := Nat.sqrt_le n
      have : Nat.sqrt n = n := Nat.le_antisymm (Nat.sqrt_le_self n) h'
      rw [this] at h h2
      rcases Nat.lt_or_ge n 2 with h3 | h3
      · interval_cases n <;> simp at h
      · nlinarith
theorem ceilSqrt_lt {n : Nat} (hn : 3 ≤ n) : ceilSqrt n < n := by
  have h2 := Nat.sqrt_le n
  unfold ceilSqrt
  split
  · by_contra hc
    have : Nat.sqrt n = n := Nat.le_antisymm (Nat.sqrt_le_self n) (by omega)
    rw [this] at h2; nlinarith
  · by_contra hc
    have : n ≤ Nat.sqrt n + 1 := by omega
    generalize Nat.sqrt n = s at *
    nlinarith

theorem ceilDiv_mul {n m : Nat} (hm : 0 < m) : n ≤ m * ceilDiv n m := by
  unfold ceilDiv
  have := Nat.div_add_mod (n + m - 1) m
  have := Nat.mod_lt (n + m - 1) hm
  omega
theorem ceilDiv_le {n m q : Nat} (h : n ≤ m * q) : ceilDiv n m ≤ q := by
  unfold ceilDiv
  rcases Nat.eq_zero_or_pos m with rfl | hm
  · simp
  · have h1 : n + m - 1 < (q + 1) * m := by
      have : (q + 1) * m = m * q + m := by ring
      omega
    have := (Nat.div_lt_iff_lt_mul hm).2 h1
    omega
theorem ceilDiv_pos {n m : Nat} (hn : 0 < n) (hm : 0 < m) : 0 < ceilDiv n m := by
  have := ceilDiv_mul (n := n) hm
  by_contra hc
  have : ceilDiv n m = 0 := by omega
  simp_all

theorem grid_sat {p q : Nat} {us vs vars : List (Lit (EV α))} {w : EV α → Bool} (hu : us.length = p) (hv : vs.length = q)
    (hq : 0 < q) (hpq : vars.length ≤ p * q) : Sat w (productGrid p q us vs vars) ↔
      ∀ a (ha : a < vars.length), vars[a].eval w = true →
        us[a / q]?.map (Lit.eval w) = some true ∧ vs[a % q]?.map (Lit.eval w) = some true := by
  unfold productGrid
  simp only [sat_flatMap, List.mem_range]
  have hcell : ∀ i j, i < p → j < q → (Sat w (gridCell vars[i * q + j]? us[i]? vs[j]?) ↔ ∀ (ha : i * q + j < vars.length), vars[i * q + j].eval w = true →
        us[i]?.map (Lit.eval w) = some true ∧ vs[j]?.map (Lit.eval w) = some true) := by
    intro i j hi hj
    rw [List.getElem?_eq_getElem (l := us) (by omega), List.getElem?_eq_getElem (l := vs) (by omega)]
    by_cases ha : i * q + j < vars.length
    · rw [List.getElem?_eq_getElem ha]
      simp only [gridCell, sat_cons, sat_nil, and_true, List.mem_cons, List.not_mem_nil, or_false, exists_eq_or_imp, exists_eq_left, Lit.eval_neg,
        Option.map_some, Option.some.injEq, ha, true_implies]
      constructor
      · rintro ⟨a, b⟩ -
        exact fun h => ⟨a.elim (fun e => by simp [h] at e) id, b.elim (fun e => by simp [h] at e) id⟩
      · intro h
        by_cases hx : vars[i * q + j].eval w = true
        · exact ⟨.inr (h trivial hx).1, .inr (h trivial hx).2⟩
        · exact ⟨.inl (by simpa using hx), .inl (by simpa using hx)⟩
    · rw [List.getElem?_eq_none (by omega)]
      simp [ha, gridCell]
  constructor
  · intro h a ha e
    have hi : a / q < p := (Nat.div_lt_iff_lt_mul hq).2 (by omega)
    have hj : a % q < q := Nat.mod_lt _ hq
    have hh := (hcell _ _ hi hj).1 (h _ hi _ hj)
    have he : a / q * q + a % q = a := by have := Nat.div_add_mod a q; rw [Nat.mul_comm]; exact this
    exact hh (by omega) (by simpa [he] using e)
  · intro h i hi j hj
    rw [hcell i j hi hj]
    intro ha e
    have := h _ ha e
    have e1 : (i * q + j) / q = i := by
      rw [Nat.mul_comm, Nat.mul_add_div hq, Nat.div_eq_of_lt hj]; omega
    have e2 : (i * q + j) % q = j := by
      rw [Nat.mul_comm, Nat.mul_add_mod, Nat.mod_eq_of_lt hj]
    rwa [e1, e2] at this

theorem grid_vars {p q : Nat} {us vs vars : List (Lit (EV α))} : ∀ c ∈ productGrid p q us vs vars, ∀ l ∈ c,
    (∃ m ∈ vars, m.var = l.var) ∨ l ∈ us ∨ l ∈ vs := by
  intro c hc l hl
  simp only [productGrid, List.mem_flatMap] at hc
  obtain ⟨i, _, j, _, hc⟩ := hc
  cases hx : vars[i * q + j]? with
  | none => simp [hx, gridCell] at hc
  | some x =>
    cases hu : us[i]? with
    | none => simp [hx, hu, gridCell] at hc
    | some u =>
      cases hv : vs[j]? with
      | none => simp [hx, hu, hv, gridCell] at hc
      | some v =>
        simp only [hx, hu, hv, gridCell, List.mem_cons, List.not_mem_nil, or_false] at hc
        rcases hc with rfl | rfl <;> simp only [List.mem_cons, List.not_mem_nil, or_false] at hl <;> rcases hl with rfl | rfl
        · exact .inl ⟨x, List.mem_of_getElem? hx, rfl⟩
        · exact .inr (.inl (List.mem_of_getElem? hu))
        · exact .inl ⟨x, List.mem_of_getElem? hx, rfl⟩
        · exact .inr (.inr (List.mem_of_getElem? hv))

/-- at most one literal of a family is true if exactly the one with a given index is -/
theorem amo_auxs {v : EV α → Bool} {k n : Nat} (t : Nat) (h : ∀ i, i < n → v (.aux (k + i)) = true → i = t) : cnt v (auxs k n) ≤ 1 := by
  rw [amo_iff]
  intro i j hi hj ei ej
  rw [auxs_getElem hi, al_eval] at ei
  rw [auxs_getElem hj, al_eval] at ej
  rw [h i (by simpa using hi) ei, h j (by simpa using hj) ej]

theorem product_exact {bound : Int} : ∀ (fuel k : Nat) (vars : List (Lit (EV α))) (r : List (Clause α) × Nat), 0 < vars.length →
    (∀ l ∈ vars, Old k l) → product bound fuel k vars = some r → Exact k r.2 vars r.1 (fun v => cnt v vars ≤ 1) := by
  intro fuel
  induction fuel with
  | zero => intro k vars r _ _ h; simp [product] at h
  | succ fuel ih =>
    intro k vars r hn ho h
    rw [product] at h
    generalize hp : ceilSqrt vars.length = p at h
    generalize hq : ceilDiv vars.length p = q at h
    have hp0 : 0 < p := hp ▸ ceilSqrt_pos hn
    have hq0 : 0 < q := hq ▸ ceilDiv_pos hn hp0
    have hpq : vars.length ≤ p * q := hq ▸ ceilDiv_mul hp0
    generalize h1 : (if (p : Int) ≤ bound then some (pure (auxs k p), k + p + q) else product bound fuel (k + p + q) (auxs k p)) = o1 at h
    cases o1 with
    | none => simp at h
    | some r1 =>
      simp only at h
      generalize h2 : (if (q : Int) ≤ bound then some (pure (auxs (k + p) q), r1.2) else product bound fuel r1.2 (auxs (k + p) q)) = o2 at h
      cases o2 with
      | none => simp at h
      | some r2 =>
        simp only [Option.some.injEq] at h
        subst h
        have hou : ∀ l ∈ (auxs k p : List (Lit (EV α))), Old (k + p + q) l := old_auxs (by omega)
        have hov : ∀ l ∈ (auxs (k + p) q : List (Lit (EV α))), Old (k + p + q) l := old_auxs (by omega)
        have E1 : Exact (k + p + q) r1.2 (auxs k p) r1.1 (fun v => cnt v (auxs k p) ≤ 1) := by
          split at h1
          · cases h1; exact pure_exact _ _
          · exact ih _ _ _ (by simpa using hp0) hou h1
        have E2 : Exact r1.2 r2.2 (auxs (k + p) q) r2.1 (fun v => cnt v (auxs (k + p) q) ≤ 1) := by
          split at h2
          · cases h2; exact pure_exact _ _
          · exact ih _ _ _ (by simpa using hq0) (fun l hl => (hov l hl).mono E1.le) h2
        have hle1 := E1.le
        have hle2 := E2.le
        refine ⟨by simp; omega, ?_, ?_, ?_⟩
        · intro c hc l hl
          simp only [List.mem_append] at hc
          have hu : ∀ m ∈ (auxs k p : List (Lit (EV α))), New k r2.2 m.var := by
            intro m hm; obtain ⟨i, hi, rfl⟩ := mem_auxs.1 hm; rw [new_al]; omega
          have hv : ∀ m ∈ (auxs (k + p) q : List (Lit (EV α))), New k r2.2 m.var := by
            intro m hm; obtain ⟨i, hi, rfl⟩ := mem_auxs.1 hm; rw [new_al]; omega
          rcases hc with (hc | hc) | hc
          · rcases E1.vars c hc l hl with ⟨m, hm, e⟩ | hnew
            · exact .inr (e ▸ hu m hm)
            · exact .inr (hnew.mono (by omega) hle2)
          · rcases E2.vars c hc l hl with ⟨m, hm, e⟩ | hnew
            · exact .inr (e ▸ hv m hm)
            · exact .inr (hnew.mono (by omega) (Nat.le_refl _))
          · rcases grid_vars c hc l hl with h | h | h
            · exact .inl h
            · exact .inr (hu l h)
            · exact .inr (hv l h)
        · intro w hw
          simp only [sat_append] at hw
          obtain ⟨⟨hw1, hw2⟩, hw3⟩ := hw
          rw [grid_sat (by simp) (by simp) hq0 hpq] at hw3
          have hu := amo_iff.1 (E1.sound w hw1)
          have hv := amo_iff.1 (E2.sound w hw2)
          rw [amo_iff]
          intro a b ha hb ea eb
          obtain ⟨ua, va⟩ := hw3 a ha ea
          obtain ⟨ub, vb⟩ := hw3 b hb eb
          have key : ∀ (ls : List (Lit (EV α))) (i : Nat), ls[i]?.map (Lit.eval w) = some true → ∃ hi : i < ls.length, ls[i].eval w = true := by
            intro ls i h
            by_cases hi : i < ls.length
            · rw [List.getElem?_eq_getElem hi] at h; exact ⟨hi, by simpa using h⟩
            · rw [List.getElem?_eq_none (by omega)] at h; simp at h
          obtain ⟨i1, e1⟩ := key _ _ ua
          obtain ⟨i2, e2⟩ := key _ _ ub
          obtain ⟨i3, e3⟩ := key _ _ va
          obtain ⟨i4, e4⟩ := key _ _ vb
          have d := hu _ _ i1 i2 e1 e2
          have m := hv _ _ i3 i4 e3 e4
          rw [← Nat.div_add_mod a q, ← Nat.div_add_mod b q, d, m]
        · intro v hv
          -- the index of the true literal
          obtain ⟨t, ht⟩ : ∃ t, ∀ a (ha : a < vars.length), vars[a].eval v = true → a = t := by
            by_cases hex : ∃ t, ∃ (ht : t < vars.length), vars[t].eval v = true
            · obtain ⟨t, ht, e⟩ := hex
              exact ⟨t, fun a ha ea => amo_iff.1 hv a t ha ht ea e⟩
            · exact ⟨0, fun a ha ea => absurd ⟨a, ha, ea⟩ hex⟩
          let v1 := setNew v k (k + p + q) (fun i => if i < p then decide (i = t / q) else decide (i - p = t % q))
          have hv1off : ∀ x, ¬New k (k + p + q) x → v1 x = v x := fun x hx => setNew_off hx
          have hu1 : ∀ i, i < p → v1 (.aux (k + i)) = decide (i = t / q) := by
            intro i hi
            show setNew _ _ _ _ _ = _
            rw [setNew_on (by omega), if_pos hi]
          have hvv1 : ∀ j, j < q → v1 (.aux (k + p + j)) = decide (j = t % q) := by
            intro j hj
            show setNew _ _ _ _ _ = _
            rw [show k + p + j = k + (p + j) by omega, setNew_on (by omega), if_neg (by omega)]
            simp
          obtain ⟨w1, hw1off, hw1⟩ := E1.complete v1 (amo_auxs (t / q) fun i hi e => by rw [hu1 i hi] at e; simpa using e)
          obtain ⟨w2, hw2off, hw2⟩ := E2.complete w1 (amo_auxs (t % q) fun j hj e => by
            rw [hw1off _ (by rintro ⟨n, e, a, b⟩; cases e; omega), hvv1 j hj] at e; simpa using e)
          have hw2v1 : ∀ x, ¬New (k + p + q) r2.2 x → w2 x = v1 x := fun x hx => by
            rw [hw2off x (fun h => hx (h.mono hle1 (Nat.le_refl _))), hw1off x (fun h => hx (h.mono (Nat.le_refl _) hle2))]
          refine ⟨w2, fun x hx => ?_, ?_⟩
          · rw [hw2v1 x (fun h => hx (h.mono (by omega) (Nat.le_refl _))), hv1off x (fun h => hx (h.mono (Nat.le_refl _) (by omega)))]
          · simp only [sat_append]
            refine ⟨⟨(E1.keep (j' := r2.2) (Nat.le_refl _) (fun l hl => (hou l hl).mono hle1) hw2off).2 hw1, hw2⟩, ?_⟩
            rw [grid_sat (by simp) (by simp) hq0 hpq]
            intro a ha ea
            have hva : vars[a].eval w2 = vars[a].eval v := eval_congr_var (by
              have hoa := ho _ (List.getElem_mem ha)
              rw [hw2v1 _ (hoa.not_new (by omega)), hv1off _ (hoa.not_new (Nat.le_refl _))])
            rw [hva] at ea
            have hat := ht a ha ea
            have hi : a / q < p := (Nat.div_lt_iff_lt_mul hq0).2 (by omega)
            have hj : a % q < q := Nat.mod_lt _ hq0
            rw [List.getElem?_eq_getElem (by simpa using hi), List.getElem?_eq_getElem (by simpa using hj), auxs_getElem, auxs_getElem]
            simp only [Option.map_some, al_eval, Option.some.injEq]
            rw [hw2v1 _ (by rintro ⟨n, e, a, b⟩; cases e; omega), hw2v1 _ (by rintro ⟨n, e, a, b⟩; cases e; omega), hu1 _ hi, hvv1 _ hj, hat]
            simp

/-- with a bound of at least two the recursion ends -/
theorem product_terminates {bound : Int} (hb : 2 ≤ bound) : ∀ (fuel k : Nat) (vars : List (Lit (EV α))), 0 < vars.length → vars.length ≤ fuel →
    ∃ r, product bound fuel k vars = some r := by
  intro fuel
  induction fuel with
  | zero => intro k vars h1 h2; omega
  | succ fuel ih =>
    intro k vars hn hf
    rw [product]
    generalize hp : ceilSqrt vars.length = p
    generalize hq : ceilDiv vars.length p = q
    have hp0 : 0 < p := hp ▸ ceilSqrt_pos hn
    have hq0 : 0 < q := hq ▸ ceilDiv_pos hn hp0
    have hqp : q ≤ p := hq ▸ ceilDiv_le (hp ▸ ceilSqrt_sq _)
    have hpb : (p : Int) ≤ bound ∨ p ≤ fuel := by
      rcases Nat.lt_or_ge vars.length 3 with h | h
      · left
        have : p ≤ vars.length := hp ▸ ceilSqrt_le
        omega
      · right
        have : p < vars.length := hp ▸ ceilSqrt_lt h
        omega
    obtain ⟨r1, h1⟩ : ∃ r1, (if (p : Int) ≤ bound then some (pure (auxs k p), k + p + q) else product bound fuel (k + p + q) (auxs k p))
        = some (r1 : List (Clause α) × Nat) := by
      split
      · exact ⟨_, rfl⟩
      · exact ih _ _ (by simpa using hp0) (by simp; omega)
    obtain ⟨r2, h2⟩ : ∃ r2, (if (q : Int) ≤ bound then some (pure (auxs (k + p) q), r1.2) else product bound fuel r1.2 (auxs (k + p) q))
        = some (r2 : List (Clause α) × Nat) := by
      split
      · exact ⟨_, rfl⟩
      · exact ih _ _ (by simpa using hq0) (by simp; omega)
    simp only [h1, h2]
    exact ⟨_, rfl⟩

/-- with the bound one the recursion never ends -/
theorem product_diverges : ∀ (fuel k : Nat) (vars : List (Lit (EV α))), vars.length = 2 → product 1 fuel k vars = none := by
  intro fuel
  induction fuel with
  | zero => intro k vars _; rfl
  | succ fuel ih =>
    intro k vars h
    have hp : ceilSqrt 2 = 2 := by decide +kernel
    rw [product, h, hp]
    have hb : ¬((2 : Nat) : Int) ≤ 1 := by decide
    simp only [hb, if_false]
    rw [ih _ _ (by simp)]

/-! ### amoNested -/

theorem nested_exact {gs : Int} : ∀ (fuel k : Nat) (vars : List (Lit (EV α))) (r : List (Clause α) × Nat),
    (∀ l ∈ vars, Old k l) → nested gs fuel k vars = some r → Exact k r.2 vars r.1 (fun v => cnt v vars ≤ 1) := by
  intro fuel
  induction fuel with
  | zero => intro k vars r _ h; simp [nested] at h
  | succ fuel ih =>
    intro k vars r ho h
    rw [nested] at h
    split at h
    · cases h; exact pure_exact _ _
    · generalize hh : vars.length / 2 = m at h
      simp only at h
      cases h1 : nested gs fuel (k + 1) (vars.take m ++ [al k]) with
      | none => simp [h1] at h
      | some r1 =>
        simp only [h1] at h
        cases h2 : nested gs fuel r1.2 (vars.drop m ++ [(al k).neg]) with
        | none => simp [h2] at h
        | some r2 =>
          simp only [h2, Option.some.injEq] at h
          subst h
          have ho1 : ∀ l ∈ vars.take m ++ [al k], Old (k + 1) l := by
            intro l hl
            rcases List.mem_append.1 hl with hl | hl
            · exact (ho l (List.mem_of_mem_take hl)).mono (by omega)
            · rw [List.mem_singleton.1 hl]; exact old_al (by omega)
          have E1 := ih _ _ _ ho1 h1
          have hle1 := E1.le
          have ho2 : ∀ l ∈ vars.drop m ++ [(al k).neg], Old r1.2 l := by
            intro l hl
            rcases List.mem_append.1 hl with hl | hl
            · exact (ho l (List.mem_of_mem_drop hl)).mono (by omega)
            · rw [List.mem_singleton.1 hl]; exact (old_al (by omega)).neg
          have E2 := ih _ _ _ ho2 h2
          have hle2 := E2.le
          have hcnt : ∀ v : EV α → Bool, cnt v vars = cnt v (vars.take m) + cnt v (vars.drop m) := by
            intro v; rw [← cnt_append, List.take_append_drop]
          refine ⟨by simp; omega, ?_, ?_, ?_⟩
          · intro c hc l hl
            rcases List.mem_append.1 hc with hc | hc
            · rcases E1.vars c hc l hl with ⟨x, hx, e⟩ | hnew
              · rcases List.mem_append.1 hx with hx | hx
                · exact .inl ⟨x, List.mem_of_mem_take hx, e⟩
                · rw [List.mem_singleton.1 hx] at e
                  right; rw [← e, new_al]; omega
              · exact .inr (hnew.mono (by omega) hle2)
            · rcases E2.vars c hc l hl with ⟨x, hx, e⟩ | hnew
              · rcases List.mem_append.1 hx with hx | hx
                · exact .inl ⟨x, List.mem_of_mem_drop hx, e⟩
                · rw [List.mem_singleton.1 hx] at e
                  right; rw [← e, neg_var, new_al]; omega
              · exact .inr (hnew.mono (by omega) (Nat.le_refl _))
          · intro w hw
            simp only [sat_append] at hw
            have a := E1.sound w hw.1
            have b := E2.sound w hw.2
            simp only [cnt_append, cnt_cons, cnt_nil, Lit.eval_neg, al_eval] at a b
            rw [hcnt]
            cases hk : w (.aux k) <;> simp [hk] at a b <;> omega
          · intro v hv
            -- the new variable is true iff no literal of the first half is
            let v1 := setNew v k (k + 1) (fun _ => decide (cnt v (vars.take m) = 0))
            have hv1 : v1 (.aux k) = decide (cnt v (vars.take m) = 0) := setNew_on (i := 0) (by omega)
            have hc1 : ∀ ms : List (Lit (EV α)), (∀ l ∈ ms, l ∈ vars) → cnt v1 ms = cnt v ms := fun ms hm =>
              cnt_congr fun l hl => setNew_off ((ho l (hm l hl)).not_new (Nat.le_refl _))
            rw [hcnt] at hv
            obtain ⟨w1, hoff1, hs1⟩ := E1.complete v1 (by
              simp only [cnt_append, cnt_cons, cnt_nil, al_eval, hv1]
              rw [hc1 _ fun l hl => List.mem_of_mem_take hl]
              by_cases h0 : cnt v (vars.take m) = 0 <;> simp [h0]; omega)
            have hc2 : ∀ ms : List (Lit (EV α)), (∀ l ∈ ms, l ∈ vars) → cnt w1 ms = cnt v ms := fun ms hm => by
              rw [← hc1 ms hm]
              exact cnt_congr fun l hl => hoff1 _ ((ho l (hm l hl)).not_new (by omega))
            obtain ⟨w2, hoff2, hs2⟩ := E2.complete w1 (by
              simp only [cnt_append, cnt_cons, cnt_nil, Lit.eval_neg, al_eval]
              rw [hoff1 (.aux k) (by rintro ⟨n, e, a, b⟩; cases e; omega), hv1]
              rw [hc2 _ fun l hl => List.mem_of_mem_drop hl]
              by_cases h0 : cnt v (vars.take m) = 0 <;> simp [h0] <;> omega)
            refine ⟨w2, fun x hx => ?_, ?_⟩
            · rw [hoff2 x fun h => hx (h.mono (by omega) (Nat.le_refl _)), hoff1 x fun h => hx (h.mono (by omega) hle2)]
              exact setNew_off fun h => hx (h.mono (Nat.le_refl _) (by simp; omega))
            · simp only [sat_append]
              exact ⟨(E1.keep (Nat.le_refl _) (fun l hl => (ho1 l hl).mono hle1) hoff2).2 hs1, hs2⟩

/-- with groups of at least three the recursion ends -/
theorem nested_terminates {gs : Int} (hg : 3 ≤ gs) : ∀ (fuel k : Nat) (vars : List (Lit (EV α))), vars.length < fuel →
    ∃ r, nested gs fuel k vars = some r := by
  intro fuel
  induction fuel with
  | zero => intro k vars h; omega
  | succ fuel ih =>
    intro k vars hf
    rw [nested]
    split
    · exact ⟨_, rfl⟩
    · rename_i hn
      obtain ⟨r1, h1⟩ := ih (k + 1) (vars.take (vars.length / 2) ++ [al k]) (by simp; omega)
      obtain ⟨r2, h2⟩ := ih r1.2 (vars.drop (vars.length / 2) ++ [(al k).neg]) (by simp; omega)
      simp only [h1, h2]
      exact ⟨_, rfl⟩

/-- with groups of two the recursion never ends on three literals -/
theorem nested_diverges : ∀ (fuel k : Nat) (vars : List (Lit (EV α))), vars.length = 3 → nested 2 fuel k vars = none := by
  intro fuel
  induction fuel with
  | zero => intro k vars _; rfl
  | succ fuel ih =>
    intro k vars h
    rw [nested, if_neg (by rw [h]; decide)]
    simp only
    cases h1 : nested 2 fuel (k + 1) (vars.take (vars.length / 2) ++ [al k]) with
    | none => rfl
    | some r1 => simp only; rw [ih _ _ (by simp [h])]

/-! ### amoCommander -/

theorem cut_flatten {gs : Nat} : ∀ (ls : List (Lit (EV α))) (c : Nat) (cur : List (Lit (EV α))), ls ≠ [] → (cut gs c cur ls).flatten = cur ++ ls := by
  intro ls
  induction ls with
  | nil => intro c cur h; exact absurd rfl h
  | cons x xs ih =>
    intro c cur _
    cases xs with
    | nil => simp [cut]
    | cons y ys =>
      rw [cut]
      · split
        · rw [List.flatten_cons, ih _ _ (by simp)]; simp
        · rw [ih _ _ (by simp)]; simp
      · simp

theorem cut_length_le {gs : Nat} : ∀ (ls : List (Lit (EV α))) (c : Nat) (cur : List (Lit (EV α))), (cut gs c cur ls).length ≤ ls.length := by
  intro ls
  induction ls with
  | nil => intro c cur; simp [cut]
  | cons x xs ih =>
    intro c cur
    cases xs with
    | nil => simp [cut]
    | cons y ys =>
      rw [cut]
      · split
        · have := ih 0 []; simp only [List.length_cons] at *; omega
        · have := ih (c + 1) (cur ++ [x]); simp only [List.length_cons] at *; omega
      · simp

theorem cut_length_lt {gs : Nat} (hg : 2 ≤ gs) {ls : List (Lit (EV α))} (h : 2 ≤ ls.length) : (cut gs 0 [] ls).length < ls.length := by
  obtain ⟨x, y, ys, rfl⟩ : ∃ x y ys, ls = x :: y :: ys := by
    match ls, h with
    | x :: y :: ys, _ => exact ⟨x, y, ys, rfl⟩
  rw [cut]
  · rw [if_neg (by omega)]
    have := cut_length_le (gs := gs) (y :: ys) (0 + 1) ([] ++ [x])
    simp only [List.length_cons] at *; omega
  · simp

theorem cut_ne_nil {gs : Nat} : ∀ (ls : List (Lit (EV α))) (c : Nat) (cur : List (Lit (EV α))), ls ≠ [] → cut gs c cur ls ≠ [] := by
  intro ls c cur h e
  have := cut_flatten (gs := gs) ls c cur h
  rw [e] at this
  simp at this
  exact h this.2

theorem sat_group {ex : Bool} {k : Nat} {w : EV α → Bool} {g : List (Lit (EV α))} : Sat w (commanderGroup ex k g) ↔
    cnt w g ≤ 1 ∧ (ex = true → 0 < cnt w g ∨ w (.aux k) = true) ∧ (w (.aux k) = true → cnt w g = 0) := by
  unfold commanderGroup
  rw [sat_append, sat_append, sat_pure, and_assoc]
  refine and_congr_right fun _ => and_congr ?_ ?_
  · cases ex
    · simp
    · simp only [if_true, sat_cons, sat_nil, and_true, List.mem_append, List.mem_singleton, true_implies]
      rw [cnt_pos]
      constructor
      · rintro ⟨l, hl | rfl, e⟩
        · exact .inl ⟨l, hl, e⟩
        · exact .inr (by simpa using e)
      · rintro (⟨l, hl, e⟩ | e)
        · exact ⟨l, .inl hl, e⟩
        · exact ⟨al k, .inr rfl, by simpa using e⟩
  · rw [sat_map, cnt_zero]
    simp only [List.mem_cons, List.not_mem_nil, or_false, exists_eq_or_imp, exists_eq_left, Lit.eval_neg, al_eval]
    constructor
    · intro h hk l hl
      have := h l hl
      simpa [hk] using this
    · intro h l hl
      cases hk : w (.aux k)
      · simp
      · simp [h hk l hl]

theorem groups_sound {ex : Bool} {w : EV α → Bool} : ∀ (gs : List (List (Lit (EV α)))) (k : Nat), Sat w (commanderGroups ex k gs) →
    cnt w gs.flatten ≤ cnt w ((auxs k gs.length).map Lit.neg) ∧ (ex = true → cnt w ((auxs k gs.length).map Lit.neg) ≤ cnt w gs.flatten) := by
  intro gs
  induction gs with
  | nil => intro k _; simp [auxs]
  | cons g gs ih =>
    intro k h
    rw [commanderGroups, sat_append, sat_group] at h
    obtain ⟨⟨h1, h2, h3⟩, h⟩ := h
    obtain ⟨i1, i2⟩ := ih (k + 1) h
    rw [List.length_cons, auxs_succ, List.map_cons, cnt_cons, List.flatten_cons, cnt_append, Lit.eval_neg, al_eval]
    cases hk : w (.aux k)
    · simp only [hk, Bool.not_false, if_true]
      refine ⟨by omega, fun hex => ?_⟩
      have := i2 hex
      have := h2 hex
      simp [hk] at this
      omega
    · have := h3 hk
      simp only [Bool.not_true, this]
      refine ⟨by simpa using i1, fun hex => by simpa using i2 hex⟩

theorem groups_complete {ex : Bool} {w : EV α → Bool} : ∀ (gs : List (List (Lit (EV α)))) (k : Nat),
    (∀ i (hi : i < gs.length), cnt w gs[i] ≤ 1 ∧ (0 < cnt w gs[i] → w (.aux (k + i)) = false) ∧
      (ex = true → w (.aux (k + i)) = false → 0 < cnt w gs[i])) → Sat w (commanderGroups ex k gs) := by
  intro gs
  induction gs with
  | nil => intro k _; simp [commanderGroups]
  | cons g gs ih =>
    intro k h
    rw [commanderGroups, sat_append, sat_group]
    have h0 := h 0 (by simp)
    simp only [List.getElem_cons_zero, Nat.add_zero] at h0
    refine ⟨⟨h0.1, fun hex => ?_, fun hk => ?_⟩, ih (k + 1) fun i hi => ?_⟩
    · cases hk : w (.aux k)
      · exact .inl (h0.2.2 hex hk)
      · exact .inr rfl
    · by_contra hc
      have := h0.2.1 (by omega)
      rw [hk] at this; simp at this
    · have := h (i + 1) (by simpa using hi)
      have e : k + (i + 1) = k + 1 + i := by omega
      simpa [e] using this

theorem groups_vars {ex : Bool} : ∀ (gs : List (List (Lit (EV α)))) (k : Nat), ∀ c ∈ commanderGroups ex k gs, ∀ l ∈ c,
    (∃ m ∈ gs.flatten, m.var = l.var) ∨ New k (k + gs.length) l.var := by
  intro gs
  induction gs with
  | nil => intro k c hc; simp [commanderGroups] at hc
  | cons g gs ih =>
    intro k c hc l hl
    rw [commanderGroups, List.mem_append] at hc
    have hk : New k (k + (g :: gs).length) (al k : Lit (EV α)).var := by rw [new_al]; simp
    have hg : ∀ m ∈ g, ∃ m' ∈ (g :: gs).flatten, m'.var = m.var := fun m hm => ⟨m, by simp [hm], rfl⟩
    rcases hc with hc | hc
    · simp only [commanderGroup, List.mem_append] at hc
      rcases hc with (hc | hc) | hc
      · obtain ⟨m, hm, e⟩ := pure_vars c hc l hl
        obtain ⟨m', hm', e'⟩ := hg m hm
        exact .inl ⟨m', hm', e'.trans e⟩
      · cases ex
        · simp at hc
        · simp only [if_true, List.mem_singleton] at hc
          subst hc
          rcases List.mem_append.1 hl with hl | hl
          · exact .inl (hg l hl)
          · rw [List.mem_singleton.1 hl]; exact .inr hk
      · obtain ⟨m, hm, rfl⟩ := List.mem_map.1 hc
        simp only [List.mem_cons, List.not_mem_nil, or_false] at hl
        rcases hl with rfl | rfl
        · exact .inr hk
        · exact .inl (hg m hm)
    · rcases ih (k + 1) c hc l hl with ⟨m, hm, e⟩ | h
      · exact .inl ⟨m, by simp only [List.flatten_cons, List.mem_append]; exact .inr hm, e⟩
      · exact .inr (h.mono (by omega) (by simp; omega))

/-- the number of groups containing a true literal is the number of true literals if no group contains two -/
theorem cnt_groups {v w : EV α → Bool} : ∀ (gs : List (List (Lit (EV α)))) (k : Nat), (∀ g ∈ gs, cnt v g ≤ 1) →
    (∀ i (hi : i < gs.length), w (.aux (k + i)) = !decide (0 < cnt v gs[i])) → cnt w ((auxs k gs.length).map Lit.neg) = cnt v gs.flatten := by
  intro gs
  induction gs with
  | nil => intro k _ _; simp [auxs]
  | cons g gs ih =>
    intro k h1 h2
    rw [List.length_cons, auxs_succ, List.map_cons, cnt_cons, List.flatten_cons, cnt_append, Lit.eval_neg, al_eval]
    rw [ih (k + 1) (fun g' hg' => h1 g' (List.mem_cons_of_mem _ hg')) fun i hi => by
      have := h2 (i + 1) (by simpa using hi)
      have e : k + (i + 1) = k + 1 + i := by omega
      simpa [e] using this]
    have h0 := h2 0 (by simp)
    simp only [List.getElem_cons_zero, Nat.add_zero] at h0
    have := h1 g List.mem_cons_self
    rw [h0]
    by_cases hz : 0 < cnt v g
    · simp [hz]; omega
    · simp [hz]; omega

theorem commander_exact {gs : Nat} : ∀ (fuel : Nat) (ex : Bool) (k : Nat) (vars : List (Lit (EV α))) (r : List (Clause α) × Nat), vars ≠ [] →
    (∀ l ∈ vars, Old k l) → commander gs fuel ex k vars = some r →
    Exact k r.2 vars r.1 (fun v => cnt v vars ≤ 1 ∧ (ex = true → 0 < cnt v vars)) := by
  intro fuel
  induction fuel with
  | zero => intro ex k vars r _ _ h; simp [commander] at h
  | succ fuel ih =>
    intro ex k vars r hne ho h
    rw [commander] at h
    split at h
    · simp only [Option.some.injEq] at h
      subst h
      refine .direct ?_ ?_
      · intro c hc l hl
        rcases List.mem_append.1 hc with hc | hc
        · exact pure_vars c hc l hl
        · cases ex <;> simp [hne] at hc
          subst hc
          exact ⟨l, hl, rfl⟩
      · intro v
        rw [sat_append, sat_pure]
        refine and_congr_right fun _ => ?_
        cases ex
        · simp
        · simp [hne, cnt_pos]
    · simp only at h
      generalize hcut : cut gs 0 [] vars = groups at h
      have hflat : groups.flatten = vars := by rw [← hcut, cut_flatten _ _ _ hne]; rfl
      have hgne : groups ≠ [] := by rw [← hcut]; exact cut_ne_nil _ _ _ hne
      have hlen := List.length_pos_iff.2 hgne
      cases h1 : commander gs fuel true (k + groups.length) ((auxs k groups.length : List (Lit (EV α))).map Lit.neg) with
      | none => simp [h1] at h
      | some r1 =>
        simp only [h1, Option.some.injEq] at h
        subst h
        have hoa : ∀ l ∈ (auxs k groups.length).map (Lit.neg (α := EV α)), Old (k + groups.length) l := by
          intro l hl
          obtain ⟨m, hm, rfl⟩ := List.mem_map.1 hl
          exact (old_auxs (Nat.le_refl _) m hm).neg
        have E := ih true _ _ _ (by intro e; have := congrArg List.length e; simp at this; exact hgne this) hoa h1
        have hle := E.le
        refine ⟨by simp; omega, ?_, ?_, ?_⟩
        · intro c hc l hl
          rcases List.mem_append.1 hc with hc | hc
          · rcases groups_vars _ _ c hc l hl with h | h
            · rw [hflat] at h; exact .inl h
            · exact .inr (h.mono (Nat.le_refl _) hle)
          · rcases E.vars c hc l hl with ⟨m, hm, e⟩ | hnew
            · obtain ⟨m', hm', rfl⟩ := List.mem_map.1 hm
              obtain ⟨i, hi, rfl⟩ := mem_auxs.1 hm'
              right; rw [← e, neg_var, new_al]; simp only; omega
            · exact .inr (hnew.mono (by omega) (Nat.le_refl _))
        · intro w hw
          rw [sat_append] at hw
          obtain ⟨a, b⟩ := groups_sound _ _ hw.1
          obtain ⟨c, d⟩ := E.sound w hw.2
          rw [hflat] at a b
          exact ⟨by omega, fun hex => by have := b hex; have := d rfl; omega⟩
        · rintro v ⟨hv1, hv2⟩
          have hgr := cnt_flatten_le.1 (hflat ▸ hv1)
          -- the group with the true literal, or the first one
          let sel : Nat → Bool := fun i => if 0 < cnt v vars then decide (0 < cnt v (groups.getD i [])) else decide (i = 0)
          let v1 := setNew v k (k + groups.length) (fun i => !(sel i))
          have hv1off : ∀ x, ¬New k (k + groups.length) x → v1 x = v x := fun x hx => setNew_off hx
          have hv1on : ∀ i, i < groups.length → v1 (.aux (k + i)) = !(sel i) := fun i hi => setNew_on (by omega)
          have hc1 : cnt v1 ((auxs k groups.length).map Lit.neg) = 1 := by
            by_cases hz : 0 < cnt v vars
            · rw [cnt_groups (v := v) groups k hgr.1, hflat]
              · omega
              · intro i hi
                rw [hv1on i hi]
                simp only [sel, hz, if_true]
                rw [getD_lt _ hi]
            · obtain ⟨m, hm⟩ : ∃ m, groups.length = m + 1 := ⟨groups.length - 1, by omega⟩
              rw [hm, auxs_succ, List.map_cons, cnt_cons, Lit.eval_neg, al_eval]
              have e0 := hv1on 0 (by omega)
              simp only [Nat.add_zero] at e0
              rw [e0]
              have : cnt v1 ((auxs (k + 1) m).map Lit.neg) = 0 := by
                rw [cnt_zero]
                intro l hl
                obtain ⟨l', hl', rfl⟩ := List.mem_map.1 hl
                obtain ⟨i, hi, rfl⟩ := mem_auxs.1 hl'
                have := hv1on (i + 1) (by omega)
                have e : k + (i + 1) = k + 1 + i := by omega
                rw [e] at this
                rw [Lit.eval_neg, al_eval, this]
                simp [sel, hz]
              rw [this]
              simp [sel, hz]
          obtain ⟨w, hoff, hs⟩ := E.complete v1 ⟨by omega, fun _ => by omega⟩
          have hwv : ∀ x, ¬New k r1.2 x → w x = v x := fun x hx => by
            rw [hoff x fun h => hx (h.mono (by omega) (Nat.le_refl _)), hv1off x fun h => hx (h.mono (Nat.le_refl _) hle)]
          refine ⟨w, hwv, ?_⟩
          rw [sat_append]
          refine ⟨groups_complete _ _ fun i hi => ?_, hs⟩
          have hci : cnt w groups[i] = cnt v groups[i] := cnt_congr fun l hl => hwv _ ((ho l (by
            rw [← hflat]; exact List.mem_flatten.2 ⟨_, List.getElem_mem hi, hl⟩)).not_new (Nat.le_refl _))
          have hwi : w (.aux (k + i)) = !(sel i) := by
            rw [hoff _ (by rintro ⟨n, e, a, b⟩; cases e; omega), hv1on i hi]
          have hle' : cnt v groups[i] ≤ cnt v vars := by
            rw [← hflat]
            unfold cnt
            exact (List.sublist_flatten_of_mem (List.getElem_mem hi)).countP_le
          rw [hci, hwi]
          refine ⟨hgr.1 _ (List.getElem_mem hi), fun hp => ?_, fun hex hsel => ?_⟩
          · have : 0 < cnt v vars := by omega
            simp only [sel, this, if_true]
            rw [getD_lt _ hi]; simpa using hp
          · have : 0 < cnt v vars := hv2 hex
            simp only [sel, this, if_true] at hsel
            rw [getD_lt _ hi] at hsel; simpa using hsel

theorem commander_terminates {gs : Nat} (hg : 2 ≤ gs) : ∀ (fuel : Nat) (ex : Bool) (k : Nat) (vars : List (Lit (EV α))), vars.length < fuel →
    ∃ r, commander gs fuel ex k vars = some r := by
  intro fuel
  induction fuel with
  | zero => intro ex k vars h; omega
  | succ fuel ih =>
    intro ex k vars hf
    rw [commander]
    split
    · exact ⟨_, rfl⟩
    · have := cut_length_lt hg (ls := vars) (by omega)
      obtain ⟨r, h⟩ := ih true (k + (cut gs 0 [] vars).length) ((auxs k (cut gs 0 [] vars).length).map Lit.neg) (by simp; omega)
      simp only [h]
      exact ⟨_, rfl⟩

theorem cut_one : ∀ (ls : List (Lit (EV α))), (cut 1 0 [] ls).length = ls.length := by
  intro ls
  induction ls with
  | nil => simp [cut]
  | cons x xs ih =>
    cases xs with
    | nil => simp [cut]
    | cons y ys =>
      rw [cut]
      · rw [if_pos rfl, List.length_cons, ih]; rfl
      · simp

theorem commander_diverges : ∀ (fuel : Nat) (ex : Bool) (k : Nat) (vars : List (Lit (EV α))), 2 ≤ vars.length → commander 1 fuel ex k vars = none := by
  intro fuel
  induction fuel with
  | zero => intro ex k vars _; rfl
  | succ fuel ih =>
    intro ex k vars h
    rw [commander, if_neg (by omega)]
    simp only
    rw [ih _ _ _ (by simp [cut_one]; omega)]

end Verif.Enc
