import Verif.Encoding.Sorter
/-! # At-most-k, at-least-k and exactly-k encodings: exactness for one and for several bounds -/
set_option linter.unusedSectionVars false
namespace Verif.Enc
open Verif
variable {α : Type}

/-- an encoding whose bound can be tightened: the clauses `core` together with `bd r` encode `C r`, and for `core` one choice of the auxiliary
variables fits all bounds -/
structure Tight (k k' : Nat) (ls : List (Lit (EV α))) (core : List (Clause α)) (bd : Nat → List (Clause α)) (P : Nat → Prop) (C : Nat → (EV α → Bool) → Prop) : Prop where
  le : k ≤ k'
  vars : ∀ c ∈ core, ∀ l ∈ c, (∃ m ∈ ls, m.var = l.var) ∨ New k k' l.var
  bvars : ∀ r, ∀ c ∈ bd r, ∀ l ∈ c, (∃ m ∈ ls, m.var = l.var) ∨ New k k' l.var
  sound : ∀ r, P r → ∀ w, Sat w core → Sat w (bd r) → C r w
  complete : ∀ v, ∃ w, (∀ x, ¬New k k' x → w x = v x) ∧ Sat w core ∧ ∀ r, P r → C r v → Sat w (bd r)

theorem Tight.exacts {k k' : Nat} {ls : List (Lit (EV α))} {core : List (Clause α)} {bd : Nat → List (Clause α)} {P : Nat → Prop} {C : Nat → (EV α → Bool) → Prop}
    (T : Tight k k' ls core bd P C) {rs : List Nat} (h : ∀ r ∈ rs, P r) : Exact k k' ls (core ++ rs.flatMap bd) (fun w => ∀ r ∈ rs, C r w) where
  le := T.le
  vars := by
    intro c hc
    rcases List.mem_append.1 hc with hc | hc
    · exact T.vars c hc
    · obtain ⟨r, _, hc⟩ := List.mem_flatMap.1 hc; exact T.bvars r c hc
  sound := by
    intro w hw r hr
    rw [sat_append, sat_flatMap] at hw
    exact T.sound r (h r hr) w hw.1 (hw.2 r hr)
  complete := by
    intro v hv
    obtain ⟨w, h1, h2, h3⟩ := T.complete v
    refine ⟨w, h1, ?_⟩
    rw [sat_append, sat_flatMap]
    exact ⟨h2, fun r hr => h3 r (h r hr) (hv r hr)⟩
theorem Tight.exact {k k' : Nat} {ls : List (Lit (EV α))} {core : List (Clause α)} {bd : Nat → List (Clause α)} {P : Nat → Prop} {C : Nat → (EV α → Bool) → Prop}
    (T : Tight k k' ls core bd P C) {r : Nat} (h : P r) : Exact k k' ls (core ++ bd r) (C r) := by
  have := T.exacts (rs := [r]) (by simpa using h)
  simpa using this

/-- from the negated literals to at-least bounds -/
theorem Tight.negate {k k' R : Nat} {ls : List (Lit (EV α))} {core : List (Clause α)} {bd : Nat → List (Clause α)} (hR : R ≤ ls.length)
    (T : Tight k k' (ls.map Lit.neg) core bd (· ≤ ls.length - R) (fun r w => cnt w (ls.map Lit.neg) ≤ r)) :
    Tight k k' ls core (fun r => bd (ls.length - r)) (fun r => R ≤ r ∧ r ≤ ls.length) (fun r w => r ≤ cnt w ls) where
  le := T.le
  vars := by
    intro c hc l hl
    rcases T.vars c hc l hl with ⟨m, hm, e⟩ | h
    · obtain ⟨a, ha, rfl⟩ := List.mem_map.1 hm; exact .inl ⟨a, ha, e⟩
    · exact .inr h
  bvars := by
    intro r c hc l hl
    rcases T.bvars _ c hc l hl with ⟨m, hm, e⟩ | h
    · obtain ⟨a, ha, rfl⟩ := List.mem_map.1 hm; exact .inl ⟨a, ha, e⟩
    · exact .inr h
  sound := by
    intro r hr w h1 h2
    have := T.sound (ls.length - r) (by omega) w h1 h2
    have := cnt_neg w ls
    omega
  complete := by
    intro v
    obtain ⟨w, h1, h2, h3⟩ := T.complete v
    refine ⟨w, h1, h2, fun r hr hc => h3 _ (by omega) ?_⟩
    have := cnt_neg v ls
    omega

/-! ### totalizer -/

theorem mem_totUpper {outs : List (Lit (EV α))} {r : Nat} {c : Clause α} (h : c ∈ totUpper outs r) : ∃ o ∈ outs, c = [o.neg] := by
  obtain ⟨o, ho, rfl⟩ := List.mem_map.1 h
  exact ⟨o, List.mem_of_mem_drop ho, rfl⟩
theorem mem_totLower {outs : List (Lit (EV α))} {r : Nat} {c : Clause α} (h : c ∈ totLower outs r) : ∃ o ∈ outs, c = [o] := by
  obtain ⟨o, ho, rfl⟩ := List.mem_map.1 h
  exact ⟨o, List.mem_of_mem_take ho, rfl⟩
theorem sat_totUpper {w : EV α → Bool} {outs : List (Lit (EV α))} {r : Nat} : Sat w (totUpper outs r) ↔ ∀ i l, outs[i]? = some l → r ≤ i → l.eval w = false := by
  unfold totUpper
  rw [sat_map]
  constructor
  · intro h i l hl hi
    obtain ⟨m, hm, e⟩ := h l (List.mem_iff_getElem?.2 ⟨i - r, by rw [List.getElem?_drop, show r + (i - r) = i by omega]; exact hl⟩)
    rw [List.mem_singleton.1 hm, Lit.eval_neg] at e
    simpa using e
  · intro h l hl
    obtain ⟨i, hi⟩ := List.mem_iff_getElem?.1 hl
    rw [List.getElem?_drop] at hi
    exact ⟨l.neg, by simp, by rw [Lit.eval_neg, h _ l hi (by omega)]; rfl⟩
theorem sat_totLower {w : EV α → Bool} {outs : List (Lit (EV α))} {r : Nat} : Sat w (totLower outs r) ↔ ∀ i l, outs[i]? = some l → i < r → l.eval w = true := by
  unfold totLower
  rw [sat_map]
  constructor
  · intro h i l hl hi
    obtain ⟨m, hm, e⟩ := h l (List.mem_iff_getElem?.2 ⟨i, by rw [List.getElem?_take, if_pos hi]; exact hl⟩)
    rw [List.mem_singleton.1 hm] at e
    exact e
  · intro h l hl
    obtain ⟨i, hi⟩ := List.mem_iff_getElem?.1 hl
    rw [List.getElem?_take] at hi
    split at hi
    · exact ⟨l, by simp, h i l hi (by assumption)⟩
    · simp at hi

/-- the totalizer tree over fresh output variables -/
theorem tot_core {k rhs : Nat} {b : Bound} {vars : List (Lit (EV α))} (hn : 2 ≤ vars.length) (ho : ∀ l ∈ vars, Old k l)
    {R : TotRes α} (hR : toCNF rhs b vars.length (auxs k vars.length) (k + vars.length) vars.reverse = R) :
    k + vars.length ≤ R.k ∧ (∀ c ∈ R.cls, ∀ l ∈ c, (∃ m ∈ vars, m.var = l.var) ∨ New k R.k l.var) ∧
    (b.up = true → ∀ w, Sat w R.cls → UP w (auxs k vars.length) (min (cnt w vars) (rhs + 1))) ∧
    (b.lo = true → ∀ w, Sat w R.cls → LO w (auxs k vars.length) (cnt w vars)) ∧
    (∀ v, ∃ w, (∀ x, ¬New k R.k x → w x = v x) ∧ Sat w R.cls ∧ Can w (auxs k vars.length) (cnt v vars)) := by
  have T := (toCNF_ok rhs b vars.length (auxs k vars.length) (k + vars.length) vars.reverse hn (by simp) (by simp) (old_auxs (Nat.le_refl _))
    (fun l hl => (ho l (List.mem_reverse.1 hl)).mono (by omega))).1
  rw [hR, List.take_of_length_le (by simp)] at T
  have hle := T.le
  refine ⟨hle, ?_, ?_, ?_, ?_⟩
  · intro c hc l hl
    rcases T.vars c hc l hl with ⟨m, hm, e⟩ | h
    · rcases List.mem_append.1 hm with hm | hm
      · obtain ⟨i, hi, rfl⟩ := mem_auxs.1 hm
        rw [← e, new_al]; exact .inr (by omega)
      · exact .inl ⟨m, List.mem_reverse.1 hm, e⟩
    · exact .inr (h.mono (by omega) (Nat.le_refl _))
  · intro hb w hw
    have := T.soundU hb w hw
    rwa [cnt_reverse] at this
  · intro hb w hw
    have := T.soundL hb w hw
    rwa [cnt_reverse] at this
  · intro v
    let v1 := setNew v k (k + vars.length) (fun i => decide (i < cnt v vars))
    have hc1 : Can v1 (auxs k vars.length) (cnt v vars) := can_auxs fun i hi => setNew_on (by omega)
    have hcnt : cnt v1 vars = cnt v vars := cnt_congr fun l hl => setNew_off ((ho l hl).not_new (Nat.le_refl _))
    obtain ⟨w, hoff, hs⟩ := T.complete v1 (by rw [cnt_reverse, hcnt]; exact hc1)
    refine ⟨w, fun x hx => ?_, hs, ?_⟩
    · rw [hoff x fun h => hx (h.mono (by omega) (Nat.le_refl _))]
      exact setNew_off fun h => hx (h.mono (Nat.le_refl _) hle)
    · exact (can_congr fun l hl => hoff _ ((old_auxs (Nat.le_refl _) l hl).not_new (Nat.le_refl _))).2 hc1

theorem new_auxs {k n k' : Nat} (h : k + n ≤ k') {l : Lit (EV α)} (hl : l ∈ auxs k n) : New k k' l.var := by
  obtain ⟨i, hi, rfl⟩ := mem_auxs.1 hl
  rw [new_al]; omega

theorem totalizerAMK_tight {k rhs : Nat} {vars : List (Lit (EV α))} (h0 : 0 < rhs) (hn : rhs < vars.length) (ho : ∀ l ∈ vars, Old k l) :
    ∃ core, (totalizerAMK k vars rhs).cls = core ++ totUpper (totalizerAMK k vars rhs).vec1 rhs ∧
    Tight k (totalizerAMK k vars rhs).k vars core (totUpper (totalizerAMK k vars rhs).vec1) (· ≤ rhs) (fun r w => cnt w vars ≤ r) := by
  refine ⟨_, rfl, ?_⟩
  obtain ⟨hle, hv, hU, -, hC⟩ := tot_core (b := .upper) (rhs := rhs) (by omega) ho rfl
  simp only [totalizerAMK]
  refine ⟨by omega, hv, ?_, ?_, ?_⟩
  · intro r c hc l hl
    obtain ⟨o, ho, rfl⟩ := mem_totUpper hc
    rw [List.mem_singleton.1 hl, neg_var]
    exact .inr (new_auxs hle ho)
  · intro r hr w hw hb
    by_contra hc
    have hcl := cnt_le w vars
    have h1 := hU rfl w hw r (al (k + r)) (auxs_get.2 ⟨by omega, rfl⟩) (by omega)
    rw [sat_totUpper.1 hb r _ (auxs_get.2 ⟨by omega, rfl⟩) (Nat.le_refl _)] at h1
    simp at h1
  · intro v
    obtain ⟨w, h1, h2, h3⟩ := hC v
    refine ⟨w, h1, h2, fun r hr hc => sat_totUpper.2 fun i l hl hi => ?_⟩
    rw [h3 i l hl]; simp; omega

theorem totalizerALK_tight {k rhs : Nat} {vars : List (Lit (EV α))} (hn : 2 ≤ vars.length) (ho : ∀ l ∈ vars, Old k l) :
    ∃ core, (totalizerALK k vars rhs).cls = core ++ totLower (totalizerALK k vars rhs).vec1 rhs ∧
    Tight k (totalizerALK k vars rhs).k vars core (totLower (totalizerALK k vars rhs).vec1) (· ≤ vars.length) (fun r w => r ≤ cnt w vars) := by
  refine ⟨_, rfl, ?_⟩
  obtain ⟨hle, hv, -, hL, hC⟩ := tot_core (b := .lower) (rhs := rhs) (by omega) ho rfl
  simp only [totalizerALK]
  refine ⟨by omega, hv, ?_, ?_, ?_⟩
  · intro r c hc l hl
    obtain ⟨o, ho, rfl⟩ := mem_totLower hc
    rw [List.mem_singleton.1 hl]
    exact .inr (new_auxs hle ho)
  · intro r hr w hw hb
    by_contra hc
    have hcl := cnt_le w vars
    have h1 := hL rfl w hw (r - 1) (al (k + (r - 1))) (auxs_get.2 ⟨by omega, rfl⟩) (sat_totLower.1 hb (r - 1) _ (auxs_get.2 ⟨by omega, rfl⟩) (by omega))
    omega
  · intro v
    obtain ⟨w, h1, h2, h3⟩ := hC v
    refine ⟨w, h1, h2, fun r hr hc => sat_totLower.2 fun i l hl hi => ?_⟩
    rw [h3 i l hl]; simp; omega

theorem totalizerEXK_exact {k rhs : Nat} {vars : List (Lit (EV α))} (h0 : 0 < rhs) (hn : rhs < vars.length) (ho : ∀ l ∈ vars, Old k l) :
    Exact k (totalizerEXK k vars rhs).k vars (totalizerEXK k vars rhs).cls (fun w => cnt w vars = rhs) := by
  obtain ⟨hle, hv, hU, hL, hC⟩ := tot_core (b := .both) (rhs := rhs) (by omega) ho rfl
  simp only [totalizerEXK]
  refine ⟨by omega, ?_, ?_, ?_⟩
  · intro c hc l hl
    simp only [List.mem_append] at hc
    rcases hc with (hc | hc) | hc
    · exact hv c hc l hl
    · obtain ⟨o, ho, rfl⟩ := mem_totLower hc
      rw [List.mem_singleton.1 hl]
      exact .inr (new_auxs hle ho)
    · obtain ⟨o, ho, rfl⟩ := mem_totUpper hc
      rw [List.mem_singleton.1 hl, neg_var]
      exact .inr (new_auxs hle ho)
  · intro w hw
    simp only [sat_append] at hw
    obtain ⟨⟨hw, hb⟩, hb'⟩ := hw
    have hcl := cnt_le w vars
    have h1 := hL rfl w hw (rhs - 1) (al (k + (rhs - 1))) (auxs_get.2 ⟨by omega, rfl⟩) (sat_totLower.1 hb (rhs - 1) _ (auxs_get.2 ⟨by omega, rfl⟩) (by omega))
    by_contra hc
    have h1 := hU rfl w hw rhs (al (k + rhs)) (auxs_get.2 ⟨by omega, rfl⟩) (by omega)
    rw [sat_totUpper.1 hb' rhs _ (auxs_get.2 ⟨by omega, rfl⟩) (Nat.le_refl _)] at h1
    simp at h1
  · intro v hc
    obtain ⟨w, h1, h2, h3⟩ := hC v
    refine ⟨w, h1, ?_⟩
    simp only [sat_append]
    refine ⟨⟨h2, sat_totLower.2 fun i l hl hi => ?_⟩, sat_totUpper.2 fun i l hl hi => ?_⟩
    · rw [h3 i l hl]; simp; omega
    · rw [h3 i l hl]; simp; omega

/-! ### modular totalizer -/

theorem ceilSqrt_two {n : Nat} (h : 2 ≤ n) : 2 ≤ ceilSqrt n := by
  have h1 := ceilSqrt_sq n
  by_contra hc
  have : ceilSqrt n = 0 ∨ ceilSqrt n = 1 := by omega
  rcases this with e | e <;> rw [e] at h1 <;> omega

theorem mod_arith {M R r q x : Nat} (hM : 2 ≤ M) (hr : r ≤ R) (hq : q ≤ (r + 1) / M) (hx : x ≤ M - 1) (hlast : q = (r + 1) / M → (r + 1) % M ≠ 0 ∧ x ≤ (r + 1) % M - 1) :
    q * M + x ≤ r ∧ q < closeM M (R + 1) := by
  have e := Nat.div_add_mod (r + 1) M
  have e' := Nat.div_add_mod (R + 1) M
  have hmod := Nat.mod_lt (r + 1) (show M > 0 by omega)
  have hmod' := Nat.mod_lt (R + 1) (show M > 0 by omega)
  have hmono : (r + 1) / M ≤ (R + 1) / M := Nat.div_le_div_right (by omega)
  rw [Nat.mul_comm] at e e'
  generalize (r + 1) / M = a at *
  generalize (r + 1) % M = b at *
  unfold closeM
  generalize (R + 1) / M = a' at *
  generalize (R + 1) % M = b' at *
  by_cases hqa : q = a
  · obtain ⟨h1, h2⟩ := hlast hqa
    subst hqa
    refine ⟨by omega, ?_⟩
    split
    · omega
    · rcases Nat.lt_or_ge q a' with h | h
      · exact h
      · have : a' = q := by omega
        subst this
        omega
  · have hlt : q + 1 ≤ a := by omega
    have := Nat.mul_le_mul_right M hlt
    rw [Nat.add_mul] at this
    refine ⟨by omega, ?_⟩
    split <;> omega

theorem div_facts {M r c : Nat} (hM : 0 < M) (hc : c ≤ r) : c / M ≤ (r + 1) / M ∧ (c / M = (r + 1) / M → (r + 1) % M ≠ 0 ∧ c % M ≤ (r + 1) % M - 1) := by
  have e := Nat.div_add_mod (r + 1) M
  have e' := Nat.div_add_mod c M
  refine ⟨Nat.div_le_div_right (by omega), fun h => ?_⟩
  rw [h] at e'
  constructor <;> omega

theorem sat_mtOutput {w : EV α → Bool} {M r : Nat} {up low : List (Lit (EV α))} (hM : 0 < M) (hul : (r + 1) / M ≤ up.length) : Sat w (mtOutput M up low r) ↔
    (∀ i l, up[i]? = some l → (r + 1) / M ≤ i → l.eval w = false) ∧
    ((r + 1) / M ≠ 0 → (r + 1) % M = 0 → ∀ l, up[(r + 1) / M - 1]? = some l → l.eval w = false) ∧
    ((r + 1) % M ≠ 0 → ((r + 1) / M = 0 ∨ ∀ l, up[(r + 1) / M - 1]? = some l → l.eval w = true) → ∀ i l, low[i]? = some l → (r + 1) % M - 1 ≤ i → l.eval w = false) := by
  have hll : (r + 1) - (r + 1) / M * M = (r + 1) % M := by
    have e := Nat.div_add_mod (r + 1) M
    rw [Nat.mul_comm] at e; omega
  unfold mtOutput
  simp only
  rw [hll, sat_append]
  have hz : (r + 1) / M = 0 → (r + 1) % M ≠ 0 := by
    intro h
    have e := Nat.div_add_mod (r + 1) M
    rw [h] at e; omega
  generalize (r + 1) / M = a at *
  generalize (r + 1) % M = b at *
  refine and_congr sat_totUpper ?_
  have hup : ∀ l, a ≠ 0 → (up[a - 1]? = some l ↔ ∃ h : a - 1 < up.length, up[a - 1] = l) := fun l _ => List.getElem?_eq_some_iff
  by_cases ha : a = 0
  · subst ha
    simp only [ne_eq, not_true_eq_false, false_and, if_false, if_true, false_implies, true_and, true_or, forall_const]
    exact sat_totUpper.trans ⟨fun h _ => h, fun h => h (hz rfl)⟩
  · obtain ⟨o, ho⟩ : ∃ o, up[a - 1]? = some o := ⟨_, List.getElem?_eq_getElem (show a - 1 < up.length by omega)⟩
    simp only [ha, ho, not_false_eq_true, true_and, false_or, ne_eq, if_false, Option.some.injEq, forall_eq', forall_const, oneg, Option.map_some, ocl, List.map_cons, List.map_nil]
    by_cases hb : b = 0
    · simp [hb, Lit.eval_neg]
    · rw [if_pos hb, sat_flatMap]
      simp only [hb, not_false_eq_true, false_implies, true_and, forall_const]
      constructor
      · intro h he i l hl hi
        have := h l (List.mem_iff_getElem?.2 ⟨i - (b - 1), by rw [List.getElem?_drop, show b - 1 + (i - (b - 1)) = i by omega]; exact hl⟩)
        simpa [Lit.eval_neg, he] using this
      · intro h l hl
        obtain ⟨i, hi⟩ := List.mem_iff_getElem?.1 hl
        rw [List.getElem?_drop] at hi
        cases e : o.eval w
        · simp [Lit.eval_neg, e]
        · simp [Lit.eval_neg, h e _ l hi (by omega)]

theorem mem_mtOutput {M r : Nat} {up low : List (Lit (EV α))} {c : Clause α} (h : c ∈ mtOutput M up low r) : ∀ l ∈ c, ∃ m ∈ up ++ low, m.var = l.var := by
  unfold mtOutput at h
  simp only at h
  intro l hl
  rcases List.mem_append.1 h with h | h
  · obtain ⟨o, ho, rfl⟩ := List.mem_map.1 h
    rw [List.mem_singleton.1 hl]
    exact ⟨o, List.mem_append_left _ (List.mem_of_mem_drop ho), rfl⟩
  · split at h
    · obtain ⟨o, ho, hc⟩ := List.mem_flatMap.1 h
      have := ocl_mem hc l hl
      simp only [List.mem_cons, List.not_mem_nil, or_false, Option.some.injEq] at this
      rcases this with h | rfl
      · obtain ⟨m, hm, e⟩ := oneg_var h.symm
        exact ⟨m, List.mem_append_left _ (List.mem_of_getElem? hm), e⟩
      · exact ⟨o, List.mem_append_right _ (List.mem_of_mem_drop ho), rfl⟩
    · split at h
      · obtain ⟨o, ho, rfl⟩ := List.mem_map.1 h
        rw [List.mem_singleton.1 hl]
        exact ⟨o, List.mem_append_right _ (List.mem_of_mem_drop ho), rfl⟩
      · have := ocl_mem h l hl
        simp only [List.mem_cons, List.not_mem_nil, or_false] at this
        obtain ⟨m, hm, e⟩ := oneg_var this.symm
        exact ⟨m, List.mem_append_left _ (List.mem_of_getElem? hm), e⟩

theorem modAMK_tight {k rhs : Nat} {vars : List (Lit (EV α))} (h0 : 0 < rhs) (hn : rhs < vars.length) (ho : ∀ l ∈ vars, Old k l) :
    ∃ core, (modAMK k vars rhs).cls = core ++ mtOutput (modAMK k vars rhs).mod (modAMK k vars rhs).vec1 (modAMK k vars rhs).vec2 rhs ∧
    Tight k (modAMK k vars rhs).k vars core (mtOutput (modAMK k vars rhs).mod (modAMK k vars rhs).vec1 (modAMK k vars rhs).vec2) (· ≤ rhs) (fun r w => cnt w vars ≤ r) := by
  refine ⟨_, rfl, ?_⟩
  simp only [modAMK]
  have hM2 : 2 ≤ ceilSqrt (rhs + 1) := ceilSqrt_two (by omega)
  have hMr : ceilSqrt (rhs + 1) ≤ rhs + 1 := ceilSqrt_le
  generalize ceilSqrt (rhs + 1) = M at *
  generalize hnn : vars.length = n at *
  have hpos : 0 < n / M := Nat.div_pos (by omega) (by omega)
  rw [if_neg (by omega)]
  generalize hu : n / M = u at *
  have hsh : Shape M n ((auxs k u).map some) (auxs (k + u) (M - 1) : List (Lit (EV α))) := by
    refine ⟨by simp; omega, by omega, fun _ => ⟨by simp [hu], by simp⟩, ?_⟩
    intro h
    have := congrArg List.length h
    simp at this; omega
  have hin : ∀ m, InNode ((auxs k u).map some) (auxs (k + u) (M - 1) : List (Lit (EV α))) m → ∃ i, i < u + (M - 1) ∧ m = al (k + i) := by
    intro m hm
    rcases hm with hm | hm
    · obtain ⟨o, ho, e⟩ := List.mem_map.1 hm
      cases e
      obtain ⟨i, hi, rfl⟩ := mem_auxs.1 ho
      exact ⟨i, by omega, rfl⟩
    · obtain ⟨i, hi, rfl⟩ := mem_auxs.1 hm
      exact ⟨u + i, by omega, by rw [Nat.add_assoc]⟩
  have T := (mtToCNF_ok hM2 (show M ≤ (rhs + 1) + 1 by omega) n ((auxs k u).map some) (auxs (k + u) (M - 1)) (k + u + (M - 1)) vars.reverse (by omega) hsh (by simp [hnn])
    (fun m hm => by obtain ⟨i, hi, rfl⟩ := hin m hm; exact old_al (by omega)) (fun l hl => (ho l (List.mem_reverse.1 hl)).mono (by omega))).1
  rw [List.take_of_length_le (by simp [hnn])] at T
  generalize mtToCNF M (rhs + 1) n ((auxs k u).map some) (auxs (k + u) (M - 1)) (k + u + (M - 1)) vars.reverse = R at T ⊢
  have hle := T.le
  have hub : ∀ r, r ≤ rhs → (r + 1) / M ≤ u := fun r hr => by rw [← hu]; exact Nat.div_le_div_right (by omega)
  refine ⟨by omega, ?_, ?_, ?_, ?_⟩
  · intro c hc l hl
    rcases T.vars c hc l hl with ⟨m, hm | hm, e⟩ | h
    · obtain ⟨i, hi, rfl⟩ := hin m hm
      rw [← e, new_al]; exact .inr (by omega)
    · exact .inl ⟨m, List.mem_reverse.1 hm, e⟩
    · exact .inr (h.mono (by omega) (Nat.le_refl _))
  · intro r c hc l hl
    obtain ⟨m, hm, e⟩ := mem_mtOutput hc l hl
    rw [← e]
    right
    rcases List.mem_append.1 hm with hm | hm
    · exact new_auxs (by omega) hm
    · obtain ⟨i, hi, rfl⟩ := mem_auxs.1 hm
      rw [new_al]; omega
  · intro r hr w hw hb
    obtain ⟨q, x, hq, hx, hcnt, hUq, hUx⟩ := T.sound w hw
    rw [hu] at hq
    rw [cnt_reverse] at hcnt
    simp only [auxs_length] at hx
    rw [sat_mtOutput (by omega) (by simpa using hub r hr)] at hb
    obtain ⟨b1, b2, b3⟩ := hb
    have hul := hub r hr
    have htop : ∀ i, i < u → ((auxs k u).map some)[i]? = some (some (al (k + i) : Lit (EV α))) := fun i hi => by
      rw [List.getElem?_map, auxs_get.2 ⟨hi, rfl⟩]; rfl
    have hq1 : q ≤ (r + 1) / M := by
      by_contra hc
      have := hUq ((r + 1) / M) _ (htop _ (by omega)) (by omega)
      rw [b1 ((r + 1) / M) _ (auxs_get.2 ⟨by omega, rfl⟩) (Nat.le_refl _)] at this
      simp at this
    have hlast : q = (r + 1) / M → (r + 1) % M ≠ 0 ∧ x ≤ (r + 1) % M - 1 := by
      intro hqe
      have e := Nat.div_add_mod (r + 1) M
      have hb0 : (r + 1) % M ≠ 0 := by
        intro hz
        have ha : (r + 1) / M ≠ 0 := by intro h; rw [h, hz] at e; omega
        have := hUq ((r + 1) / M - 1) _ (htop _ (by omega)) (by omega)
        rw [b2 ha hz _ (auxs_get.2 ⟨by omega, rfl⟩)] at this
        simp at this
      refine ⟨hb0, ?_⟩
      by_contra hc
      have hlow := b3 hb0 (by
        by_cases ha : (r + 1) / M = 0
        · exact .inl ha
        · refine .inr fun l hl => ?_
          obtain ⟨h1, rfl⟩ := auxs_get.1 hl
          exact hUq ((r + 1) / M - 1) _ (htop _ h1) (by omega)) ((r + 1) % M - 1) _ (auxs_get.2 ⟨by omega, rfl⟩) (Nat.le_refl _)
      rw [hUx ((r + 1) % M - 1) _ (auxs_get.2 ⟨by omega, rfl⟩) (by omega)] at hlow
      simp at hlow
    obtain ⟨f1, f2⟩ := mod_arith hM2 hr hq1 hx hlast
    rcases hcnt with h | h
    · omega
    · omega
  · intro v
    obtain ⟨v1, hv1, c1, c2⟩ := set_two v k u (M - 1) (cnt v vars / M) (cnt v vars % M)
    have hcnt : cnt v1 vars = cnt v vars := cnt_congr fun l hl => hv1 _ ((ho l hl).not_new (Nat.le_refl _))
    obtain ⟨w, hoff, hs⟩ := T.complete v1 (by
      rw [cnt_reverse, hcnt]
      intro i l hl
      rw [List.getElem?_map, Option.map_eq_some_iff] at hl
      obtain ⟨a, ha, e⟩ := hl
      cases e
      exact c1 i _ ha) (by rw [cnt_reverse, hcnt]; exact c2)
    have d1 : Can w (auxs k u) (cnt v vars / M) := (can_congr fun l hl => hoff _ ((old_auxs (by omega) l hl).not_new (Nat.le_refl _))).2 c1
    have d2 : Can w (auxs (k + u) (M - 1)) (cnt v vars % M) := (can_congr fun l hl => hoff _ ((old_auxs (by omega) l hl).not_new (Nat.le_refl _))).2 c2
    refine ⟨w, fun x hx => ?_, hs, ?_⟩
    · rw [hoff x fun h => hx (h.mono (by omega) (Nat.le_refl _))]
      exact hv1 x fun h => hx (h.mono (Nat.le_refl _) hle)
    · intro r hr hc
      obtain ⟨g1, g2⟩ := div_facts (show 0 < M by omega) hc
      have hub' := hub r hr
      rw [sat_mtOutput (by omega) (by simpa using hub r hr)]
      refine ⟨fun i l hl hi => ?_, fun ha hb l hl => ?_, fun hb hor i l hl hi => ?_⟩
      · rw [d1 i l hl]; simp; omega
      · rw [d1 _ l hl]
        simp only [decide_eq_false_iff_not]
        intro h
        exact (g2 (by omega)).1 hb
      · rw [d2 i l hl]
        have hz := Nat.zero_le (cnt v vars / M)
        have : cnt v vars / M = (r + 1) / M := by
          generalize cnt v vars / M = A at *
          generalize (r + 1) / M = B at *
          rcases hor with h | h
          · omega
          · by_cases ha : B = 0
            · have hz := Nat.zero_le A; omega
            · have hlt : B - 1 < u := by omega
              have := h _ (auxs_get.2 ⟨hlt, rfl⟩)
              rw [d1 _ _ (auxs_get.2 ⟨hlt, rfl⟩)] at this
              simp at this; omega
        have := (g2 this).2
        simp; omega

theorem modALK_tight {k rhs : Nat} {vars : List (Lit (EV α))} (h0 : 0 < rhs) (hn : rhs < vars.length) (ho : ∀ l ∈ vars, Old k l) :
    ∃ core, (modALK k vars rhs).cls = core ++ mtOutput (modALK k vars rhs).mod (modALK k vars rhs).vec1 (modALK k vars rhs).vec2 (vars.length - rhs) ∧
    Tight k (modALK k vars rhs).k vars core (fun r => mtOutput (modALK k vars rhs).mod (modALK k vars rhs).vec1 (modALK k vars rhs).vec2 (vars.length - r))
      (fun r => rhs ≤ r ∧ r ≤ vars.length) (fun r w => r ≤ cnt w vars) := by
  obtain ⟨core, hc, T⟩ := modAMK_tight (k := k) (rhs := vars.length - rhs) (vars := vars.map Lit.neg) (by omega) (by simp; omega)
    (fun l hl => by obtain ⟨a, ha, rfl⟩ := List.mem_map.1 hl; exact (ho a ha).neg)
  exact ⟨core, hc, T.negate (by omega)⟩

/-! ### networks -/

theorem cnAmkInc_tight {k rhs : Nat} {vars : List (Lit (EV α))} (hn : rhs < vars.length) (ho : ∀ l ∈ vars, Old k l) :
    ∃ core, (cnAmkInc [] k vars rhs).cls = core ++ ocl [oneg (cnAmkInc [] k vars rhs).vec1[rhs]?] ∧
    Tight k (cnAmkInc [] k vars rhs).k vars core (fun r => ocl [oneg (cnAmkInc [] k vars rhs).vec1[r]?]) (· ≤ rhs) (fun r w => cnt w vars ≤ r) := by
  refine ⟨_, rfl, ?_⟩
  simp only [cnAmkInc]
  have S := sort_ok .io vars.length (rhs + 1) k vars (Nat.le_refl _) (by omega) ho
  generalize sort [] .io (rhs + 1) k vars = N at *
  have hlen := S.len
  refine ⟨S.le, S.vars, ?_, ?_, ?_⟩
  · intro r c hc l hl
    have := ocl_mem hc l hl
    simp only [List.mem_cons, List.not_mem_nil, or_false] at this
    obtain ⟨m, hm, e⟩ := oneg_var this.symm
    rw [← e]
    rcases S.outs m (List.mem_of_getElem? hm) with h | h
    · exact .inl ⟨m, h, rfl⟩
    · exact .inr h
  · intro r hr w hw hb
    by_contra hc
    have hr' : r < N.out.length := by omega
    have := S.soundU rfl w hw r _ (List.getElem?_eq_getElem hr') (by omega)
    refine ocl_elim hb False fun o ho => .inl ?_
    rw [List.mem_singleton.1 ho]
    exact TL.neg ⟨_, List.getElem?_eq_getElem hr', this⟩
  · intro v
    obtain ⟨w, h1, h2, h3⟩ := S.complete v
    refine ⟨w, h1, h2, fun r hr hc => sat_ocl_of ⟨_, List.mem_singleton.2 rfl, oneg_true fun m hm => ?_⟩⟩
    rw [h3 r m hm]; simp; omega
theorem cnAlkInc_tight {k rhs : Nat} {vars : List (Lit (EV α))} (h0 : 0 < rhs) (hn : rhs ≤ vars.length) (ho : ∀ l ∈ vars, Old k l) :
    ∃ core, (cnAlkInc [] k vars rhs).cls = core ++ ocl [oneg (cnAlkInc [] k vars rhs).vec1[vars.length - rhs]?] ∧
    Tight k (cnAlkInc [] k vars rhs).k vars core (fun r => ocl [oneg (cnAlkInc [] k vars rhs).vec1[vars.length - r]?])
      (fun r => rhs ≤ r ∧ r ≤ vars.length) (fun r w => r ≤ cnt w vars) := by
  obtain ⟨core, hc, T⟩ := cnAmkInc_tight (k := k) (rhs := vars.length - rhs) (vars := vars.map Lit.neg) (by simp; omega)
    (fun l hl => by obtain ⟨a, ha, rfl⟩ := List.mem_map.1 hl; exact (ho a ha).neg)
  exact ⟨core, hc, T.negate (by omega)⟩

/-- the outputs-to-inputs network with its first `g` outputs set -/
theorem sortGe_exact {k g : Nat} {xs : List (Lit (EV α))} (h0 : 0 < g) (hg : g ≤ xs.length) (ho : ∀ l ∈ xs, Old k l) :
    Exact k (sort [] .oi g k xs).k xs ((sort [] .oi g k xs).cls ++ (List.range g).flatMap (fun i => ocl [(sort [] .oi g k xs).out[i]?])) (fun w => g ≤ cnt w xs) := by
  have S := sort_ok .oi xs.length g k xs (Nat.le_refl _) h0 ho
  generalize sort [] .oi g k xs = N at *
  have hlen := S.len
  refine ⟨S.le, ?_, ?_, ?_⟩
  · intro c hc l hl
    rcases List.mem_append.1 hc with hc | hc
    · exact S.vars c hc l hl
    · obtain ⟨i, _, hc⟩ := List.mem_flatMap.1 hc
      have := ocl_mem hc l hl
      simp only [List.mem_cons, List.not_mem_nil, or_false] at this
      rcases S.outs l (List.mem_of_getElem? this.symm) with h | h
      · exact .inl ⟨l, h, rfl⟩
      · exact .inr h
  · intro w hw
    rw [sat_append, sat_flatMap] at hw
    have hi : g - 1 < N.out.length := by omega
    have := ocl_elim (hw.2 (g - 1) (by simp; omega)) ((N.out[g - 1]).eval w = true) fun o ho => .inr ⟨_, by rw [List.mem_singleton.1 ho, List.getElem?_eq_getElem hi], id⟩
    have := S.soundL rfl w hw.1 (g - 1) _ (List.getElem?_eq_getElem hi) this
    omega
  · intro v hv
    obtain ⟨w, h1, h2, h3⟩ := S.complete v
    refine ⟨w, h1, ?_⟩
    rw [sat_append, sat_flatMap]
    refine ⟨h2, fun i hi => sat_ocl_of ⟨_, List.mem_singleton.2 rfl, fun l hl => ?_⟩⟩
    rw [h3 i l hl]
    simp at hi ⊢; omega

theorem Exact.unneg {k k' : Nat} {ls : List (Lit (EV α))} {cs : List (Clause α)} {C C' : (EV α → Bool) → Prop} (h : Exact k k' (ls.map Lit.neg) cs C)
    (hC : ∀ w, C w ↔ C' w) : Exact k k' ls cs C' :=
  h.congr (fun l hl => by obtain ⟨a, ha, rfl⟩ := List.mem_map.1 hl; exact ⟨a, ha, rfl⟩) hC

theorem cnAmk_exact {k rhs : Nat} {vars : List (Lit (EV α))} (hn : rhs < vars.length) (ho : ∀ l ∈ vars, Old k l) :
    Exact k (cnAmk [] k vars rhs).k vars (cnAmk [] k vars rhs).cls (fun w => cnt w vars ≤ rhs) := by
  unfold cnAmk
  split
  · have E := sortGe_exact (k := k) (g := vars.length - rhs) (xs := vars.map Lit.neg) (by omega) (by simp) (fun l hl => by obtain ⟨a, ha, rfl⟩ := List.mem_map.1 hl; exact (ho a ha).neg)
    refine E.unneg fun w => ?_
    have := cnt_neg w vars
    omega
  · obtain ⟨core, hc, T⟩ := cnAmkInc_tight (k := k) hn ho
    have := T.exact (r := rhs) (Nat.le_refl _)
    rw [← hc] at this
    exact this
theorem cnAlk_exact {k rhs : Nat} {vars : List (Lit (EV α))} (h0 : 0 < rhs) (hn : rhs ≤ vars.length) (ho : ∀ l ∈ vars, Old k l) :
    Exact k (cnAlk [] k vars rhs).k vars (cnAlk [] k vars rhs).cls (fun w => rhs ≤ cnt w vars) := by
  unfold cnAlk
  simp only
  split
  · rw [show vars.length - (vars.length - rhs) = rhs by omega]
    exact sortGe_exact h0 hn ho
  · obtain ⟨core, hc, T⟩ := cnAlkInc_tight (k := k) h0 hn ho
    have := T.exact (r := rhs) ⟨Nat.le_refl _, hn⟩
    rw [← hc] at this
    exact this
theorem cnExk_exact {k rhs : Nat} {vars : List (Lit (EV α))} (h0 : 0 < rhs) (hn : rhs < vars.length) (ho : ∀ l ∈ vars, Old k l) :
    Exact k (cnExk [] k vars rhs).k vars (cnExk [] k vars rhs).cls (fun w => cnt w vars = rhs) := by
  unfold cnExk
  simp only
  have S := sort_ok .both vars.length (rhs + 1) k vars (Nat.le_refl _) (by omega) ho
  generalize sort [] .both (rhs + 1) k vars = N at *
  have hlen := S.len
  have hout : ∀ (m : Lit (EV α)) (i : Nat), N.out[i]? = some m → (∃ m' ∈ vars, m'.var = m.var) ∨ New k N.k m.var := fun m i hm => by
    rcases S.outs m (List.mem_of_getElem? hm) with h | h
    · exact .inl ⟨m, h, rfl⟩
    · exact .inr h
  refine ⟨S.le, ?_, ?_, ?_⟩
  · intro c hc l hl
    simp only [List.mem_append] at hc
    rcases hc with (hc | hc) | hc
    · exact S.vars c hc l hl
    · have := ocl_mem hc l hl
      simp only [List.mem_cons, List.not_mem_nil, or_false] at this
      obtain ⟨m, hm, e⟩ := oneg_var this.symm
      rw [← e]
      exact hout m _ hm
    · have := ocl_mem hc l hl
      simp only [List.mem_cons, List.not_mem_nil, or_false] at this
      exact hout l _ this.symm
  · intro w hw
    simp only [sat_append] at hw
    have hi : rhs - 1 < N.out.length := by omega
    have hi' : rhs < N.out.length := by omega
    have h1 := ocl_elim hw.2 ((N.out[rhs - 1]).eval w = true) fun o ho => .inr ⟨_, by rw [List.mem_singleton.1 ho, List.getElem?_eq_getElem hi], id⟩
    have h2 := S.soundL rfl w hw.1.1 (rhs - 1) _ (List.getElem?_eq_getElem hi) h1
    by_contra hc
    have := S.soundU rfl w hw.1.1 rhs _ (List.getElem?_eq_getElem hi') (by omega)
    refine ocl_elim hw.1.2 False fun o ho => .inl ?_
    rw [List.mem_singleton.1 ho]
    exact TL.neg ⟨_, List.getElem?_eq_getElem hi', this⟩
  · intro v hv
    obtain ⟨w, h1, h2, h3⟩ := S.complete v
    refine ⟨w, h1, ?_⟩
    simp only [sat_append]
    refine ⟨⟨h2, sat_ocl_of ⟨_, List.mem_singleton.2 rfl, oneg_true fun m hm => ?_⟩⟩, sat_ocl_of ⟨_, List.mem_singleton.2 rfl, fun m hm => ?_⟩⟩
    · rw [h3 _ m hm]; simp; omega
    · rw [h3 _ m hm]; simp; omega

end Verif.Enc
