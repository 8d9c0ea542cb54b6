import Verif.Encoding.CC
/-! # Unary numbers on literals, and the totalizer -/
set_option linter.unusedSectionVars false
namespace Verif.Enc
open Verif
variable {α : Type}

/-- the first `n` literals are true -/
def UP (w : EV α → Bool) (ls : List (Lit (EV α))) (n : Nat) : Prop := ∀ (i : Nat) l, ls[i]? = some l → i < n → l.eval w = true
/-- only the first `n` literals are true -/
def LO (w : EV α → Bool) (ls : List (Lit (EV α))) (n : Nat) : Prop := ∀ (i : Nat) l, ls[i]? = some l → l.eval w = true → i < n
/-- exactly the first `n` literals are true -/
def Can (w : EV α → Bool) (ls : List (Lit (EV α))) (n : Nat) : Prop := ∀ (i : Nat) l, ls[i]? = some l → l.eval w = decide (i < n)

theorem Can.up {w : EV α → Bool} {ls : List (Lit (EV α))} {n : Nat} (h : Can w ls n) : UP w ls n := fun i l hl hi => by rw [h i l hl]; simpa using hi
theorem Can.lo {w : EV α → Bool} {ls : List (Lit (EV α))} {n : Nat} (h : Can w ls n) : LO w ls n := fun i l hl hi => by rw [h i l hl] at hi; simpa using hi
theorem can_of {w : EV α → Bool} {ls : List (Lit (EV α))} {n : Nat} (h1 : UP w ls n) (h2 : LO w ls n) : Can w ls n := fun i l hl => by
  by_cases hi : i < n
  · rw [h1 i l hl hi]; simp [hi]
  · cases e : l.eval w
    · simp [hi]
    · exact absurd (h2 i l hl e) hi
theorem UP.mono {w : EV α → Bool} {ls : List (Lit (EV α))} {n m : Nat} (h : UP w ls n) (hm : m ≤ n) : UP w ls m := fun i l hl hi => h i l hl (by omega)
theorem can_congr {v w : EV α → Bool} {ls : List (Lit (EV α))} {n : Nat} (h : ∀ l ∈ ls, v l.var = w l.var) : Can v ls n ↔ Can w ls n := by
  constructor
  · intro hc i l hl; rw [← eval_congr_var (h l (List.mem_of_getElem? hl))]; exact hc i l hl
  · intro hc i l hl; rw [eval_congr_var (h l (List.mem_of_getElem? hl))]; exact hc i l hl

theorem can_single (w : EV α → Bool) (x : Lit (EV α)) : Can w [x] (cnt w [x]) := by
  intro i l hl
  rw [cnt_cons]
  cases i with
  | zero => simp at hl; subst hl; cases x.eval w <;> simp
  | succ i => simp at hl

theorem auxs_get {k n i : Nat} {l : Lit (EV α)} : (auxs k n)[i]? = some l ↔ i < n ∧ l = al (k + i) := by
  simp only [auxs, List.getElem?_map, Option.map_eq_some_iff]
  constructor
  · rintro ⟨a, h, rfl⟩
    rw [List.getElem?_eq_some_iff] at h
    obtain ⟨h1, h2⟩ := h
    simp at h1 h2
    subst h2
    exact ⟨h1, rfl⟩
  · rintro ⟨h, rfl⟩
    exact ⟨i, by rw [List.getElem?_eq_some_iff]; exact ⟨by simpa using h, by simp⟩, rfl⟩

theorem can_auxs {w : EV α → Bool} {k n p : Nat} (h : ∀ i, i < n → w (.aux (k + i)) = decide (i < p)) : Can w (auxs k n) p := by
  intro i l hl
  obtain ⟨hi, rfl⟩ := auxs_get.1 hl
  rw [al_eval, h i hi]

/-! ### clauses -/

theorem sat_ocl {w : EV α → Bool} : ∀ {os : List (OLit α)}, Sat w (ocl os) ↔ ((∀ o ∈ os, o ≠ none) → ∃ l, some l ∈ os ∧ l.eval w = true)
  | [] => by simp [ocl]
  | none :: os => by simp [ocl]
  | some l :: os => by
    have ih := sat_ocl (w := w) (os := os)
    rw [ocl, sat_map]
    simp only [Sat] at ih
    constructor
    · intro h hn
      by_cases hl : l.eval w = true
      · exact ⟨l, by simp, hl⟩
      · obtain ⟨m, hm, e⟩ := ih.1 (fun c hc => by
          obtain ⟨x, hx, ex⟩ := h c hc
          rcases List.mem_cons.1 hx with rfl | hx
          · exact absurd ex hl
          · exact ⟨x, hx, ex⟩) (fun o ho => hn o (List.mem_cons_of_mem _ ho))
        exact ⟨m, List.mem_cons_of_mem _ hm, e⟩
    · intro h c hc
      by_cases hl : l.eval w = true
      · exact ⟨l, by simp, hl⟩
      · obtain ⟨x, hx, ex⟩ := ih.2 (fun hn => by
          obtain ⟨m, hm, e⟩ := h (by simpa using hn)
          rcases List.mem_cons.1 hm with e' | hm
          · cases e'; exact absurd e hl
          · exact ⟨m, hm, e⟩) c hc
        exact ⟨x, List.mem_cons_of_mem _ hx, ex⟩

theorem ocl_mem : ∀ {os : List (OLit α)} {c : Clause α}, c ∈ ocl os → ∀ l ∈ c, some l ∈ os
  | [], c, hc, l, hl => by simp [ocl] at hc; simp [hc] at hl
  | none :: os, c, hc, l, hl => by simp [ocl] at hc
  | some m :: os, c, hc, l, hl => by
    rw [ocl, List.mem_map] at hc
    obtain ⟨c', hc', rfl⟩ := hc
    rcases List.mem_cons.1 hl with rfl | hl
    · simp
    · exact List.mem_cons_of_mem _ (ocl_mem hc' l hl)

theorem sat_grid {w : EV α → Bool} {a b : Nat} {f : Nat → Nat → List (Clause α)} : Sat w (grid a b f) ↔ ∀ i j, i ≤ a → j ≤ b → Sat w (f i j) := by
  simp only [grid, sat_flatMap, List.mem_range]
  exact ⟨fun h i j hi hj => h i (by omega) j (by omega), fun h i hi j hj => h i j (by omega) (by omega)⟩
theorem mem_grid {a b : Nat} {f : Nat → Nat → List (Clause α)} {c : Clause α} : c ∈ grid a b f ↔ ∃ i j, i ≤ a ∧ j ≤ b ∧ c ∈ f i j := by
  simp only [grid, List.mem_flatMap, List.mem_range]
  exact ⟨fun ⟨i, hi, j, hj, h⟩ => ⟨i, j, by omega, by omega, h⟩, fun ⟨i, j, hi, hj, h⟩ => ⟨i, by omega, j, by omega, h⟩⟩

theorem oneg_some {o : OLit α} {l : Lit (EV α)} (h : o = some l) : oneg o = some l.neg := by rw [h]; rfl
theorem oneg_var {o : OLit α} {l : Lit (EV α)} (h : oneg o = some l) : ∃ m, o = some m ∧ m.var = l.var := by
  cases o with
  | none => simp [oneg] at h
  | some m => simp only [oneg, Option.map_some, Option.some.injEq] at h; subst h; exact ⟨m, rfl, rfl⟩

/-! ### totalizer -/

theorem adderAMK_up {w : EV α → Bool} {L R out : List (Lit (EV α))} {rhs p q : Nat} (hs : Sat w (adderAMK L R out rhs)) (hl : out.length = L.length + R.length)
    (hL : UP w L (min p (rhs + 1))) (hR : UP w R (min q (rhs + 1))) (hp : p ≤ L.length) (hq : q ≤ R.length) : UP w out (min (p + q) (rhs + 1)) := by
  intro t o ho ht
  have hto : t < out.length := by by_contra hc; rw [List.getElem?_eq_none (by omega)] at ho; simp at ho
  have h1 : min p (t + 1) ≤ L.length := by omega
  have h := sat_grid.1 hs (min p (t + 1)) (t + 1 - min p (t + 1)) h1 (by omega)
  generalize hi : min p (t + 1) = i at *
  generalize hj : t + 1 - i = j at *
  unfold amkCell at h
  rw [if_neg (by omega), if_neg (by omega)] at h
  have gl : ∀ i, 0 < i → i ≤ p → i ≤ rhs + 1 → ∃ l, L[i - 1]? = some l ∧ l.eval w = true := fun i h0 h1 h2 => by
    have : i - 1 < L.length := by omega
    exact ⟨L[i - 1], List.getElem?_eq_getElem this, hL (i - 1) _ (List.getElem?_eq_getElem this) (by omega)⟩
  have gr : ∀ i, 0 < i → i ≤ q → i ≤ rhs + 1 → ∃ l, R[i - 1]? = some l ∧ l.eval w = true := fun i h0 h1 h2 => by
    have : i - 1 < R.length := by omega
    exact ⟨R[i - 1], List.getElem?_eq_getElem this, hR (i - 1) _ (List.getElem?_eq_getElem this) (by omega)⟩
  by_cases hi0 : i = 0
  · rw [if_pos hi0] at h
    obtain ⟨r, hr, er⟩ := gr j (by omega) (by omega) (by omega)
    rw [hr, show j - 1 = t by omega, ho, sat_ocl] at h
    obtain ⟨m, hm, e⟩ := h (by simp [oneg])
    simp only [oneg, Option.map_some, List.mem_cons, Option.some.injEq, List.not_mem_nil, or_false] at hm
    rcases hm with rfl | rfl
    · rw [Lit.eval_neg, er] at e; simp at e
    · exact e
  · rw [if_neg hi0] at h
    obtain ⟨l, hl', el⟩ := gl i (by omega) (by omega) (by omega)
    by_cases hj0 : j = 0
    · rw [if_pos hj0, hl', show i - 1 = t by omega, ho, sat_ocl] at h
      obtain ⟨m, hm, e⟩ := h (by simp [oneg])
      simp only [oneg, Option.map_some, List.mem_cons, Option.some.injEq, List.not_mem_nil, or_false] at hm
      rcases hm with rfl | rfl
      · rw [Lit.eval_neg, el] at e; simp at e
      · exact e
    · obtain ⟨r, hr, er⟩ := gr j (by omega) (by omega) (by omega)
      rw [if_neg hj0, hl', hr, show i + j - 1 = t by omega, ho, sat_ocl] at h
      obtain ⟨m, hm, e⟩ := h (by simp [oneg])
      simp only [oneg, Option.map_some, List.mem_cons, Option.some.injEq, List.not_mem_nil, or_false] at hm
      rcases hm with rfl | rfl | rfl
      · rw [Lit.eval_neg, el] at e; simp at e
      · rw [Lit.eval_neg, er] at e; simp at e
      · exact e

theorem adderAMK_can {w : EV α → Bool} {L R out : List (Lit (EV α))} {rhs p q : Nat} (hL : Can w L p) (hR : Can w R q) (hO : Can w out (p + q)) :
    Sat w (adderAMK L R out rhs) := by
  rw [adderAMK, sat_grid]
  intro i j _ _
  unfold amkCell
  have kL : ∀ l : Lit (EV α), L[i - 1]? = some l → 0 < i → l.eval w = false ∨ i ≤ p := fun l h h0 => by
    rw [hL _ _ h]; by_cases h' : i ≤ p
    · exact .inr h'
    · left; simp; omega
  have kR : ∀ l : Lit (EV α), R[j - 1]? = some l → 0 < j → l.eval w = false ∨ j ≤ q := fun l h h0 => by
    rw [hR _ _ h]; by_cases h' : j ≤ q
    · exact .inr h'
    · left; simp; omega
  split
  · simp
  · split
    · simp
    · split
      · rw [sat_ocl]
        intro hn
        cases hr : R[j - 1]? with
        | none => simp [hr, oneg] at hn
        | some r =>
          cases ho : out[j - 1]? with
          | none => simp [ho, oneg] at hn
          | some o =>
            rcases kR r hr (by omega) with h | h
            · exact ⟨r.neg, by simp [oneg], by rw [Lit.eval_neg, h]; rfl⟩
            · exact ⟨o, by simp, by rw [hO _ _ ho]; simp; omega⟩
      · split
        · rw [sat_ocl]
          intro hn
          cases hl : L[i - 1]? with
          | none => simp [hl, oneg] at hn
          | some l =>
            cases ho : out[i - 1]? with
            | none => simp [ho, oneg] at hn
            | some o =>
              rcases kL l hl (by omega) with h | h
              · exact ⟨l.neg, by simp [oneg], by rw [Lit.eval_neg, h]; rfl⟩
              · exact ⟨o, by simp, by rw [hO _ _ ho]; simp; omega⟩
        · rw [sat_ocl]
          intro hn
          cases hl : L[i - 1]? with
          | none => simp [hl, oneg] at hn
          | some l =>
            cases hr : R[j - 1]? with
            | none => simp [hr, oneg] at hn
            | some r =>
              cases ho : out[i + j - 1]? with
              | none => simp [ho, oneg] at hn
              | some o =>
                rcases kL l hl (by omega) with h | h
                · exact ⟨l.neg, by simp [oneg], by rw [Lit.eval_neg, h]; rfl⟩
                · rcases kR r hr (by omega) with h' | h'
                  · exact ⟨r.neg, by simp [oneg], by rw [Lit.eval_neg, h']; rfl⟩
                  · exact ⟨o, by simp, by rw [hO _ _ ho]; simp; omega⟩

theorem adderALK_lo {w : EV α → Bool} {L R out : List (Lit (EV α))} {p q : Nat} (hs : Sat w (adderALK L R out)) (hl : out.length = L.length + R.length)
    (hL : LO w L p) (hR : LO w R q) (hp : p ≤ L.length) (hq : q ≤ R.length) : LO w out (p + q) := by
  intro t o ho et
  have hto : t < out.length := by by_contra hc; rw [List.getElem?_eq_none (by omega)] at ho; simp at ho
  by_contra hc
  -- a position beyond both counts
  obtain ⟨a, b, hab, hpa, hqb, hal, hbl⟩ : ∃ a b, a + b = t ∧ p ≤ a ∧ q ≤ b ∧ a ≤ L.length ∧ b ≤ R.length := by
    refine ⟨min L.length (t - q), t - min L.length (t - q), ?_, ?_, ?_, ?_, ?_⟩ <;> omega
  have kL : a < L.length → ∃ l, L[a]? = some l ∧ l.eval w = false := fun h => ⟨L[a], List.getElem?_eq_getElem h, by
    cases e : L[a].eval w
    · rfl
    · have := hL a _ (List.getElem?_eq_getElem h) e; omega⟩
  have kR : b < R.length → ∃ l, R[b]? = some l ∧ l.eval w = false := fun h => ⟨R[b], List.getElem?_eq_getElem h, by
    cases e : R[b].eval w
    · rfl
    · have := hR b _ (List.getElem?_eq_getElem h) e; omega⟩
  by_cases ha : a < L.length
  · obtain ⟨l, hl', el⟩ := kL ha
    by_cases hb : b < R.length
    · obtain ⟨r, hr, er⟩ := kR hb
      have h := sat_grid.1 hs (a + 1) (b + 1) (by omega) (by omega)
      unfold alkCell at h
      rw [if_neg (by omega), if_neg (by omega), if_neg (by omega), Nat.add_sub_cancel, Nat.add_sub_cancel, hl', hr,
        show a + 1 + (b + 1) - 2 = t by omega, ho, sat_ocl] at h
      obtain ⟨m, hm, e⟩ := h (by simp [oneg])
      simp only [oneg, Option.map_some, List.mem_cons, Option.some.injEq, List.not_mem_nil, or_false] at hm
      rcases hm with rfl | rfl | rfl
      · rw [el] at e; simp at e
      · rw [er] at e; simp at e
      · rw [Lit.eval_neg, et] at e; simp at e
    · have h := sat_grid.1 hs (a + 1) 0 (by omega) (by omega)
      unfold alkCell at h
      rw [if_neg (by omega), if_neg (by omega), if_pos rfl, Nat.add_sub_cancel, hl', show R.length + (a + 1) - 1 = t by omega, ho, sat_ocl] at h
      obtain ⟨m, hm, e⟩ := h (by simp [oneg])
      simp only [oneg, Option.map_some, List.mem_cons, Option.some.injEq, List.not_mem_nil, or_false] at hm
      rcases hm with rfl | rfl
      · rw [el] at e; simp at e
      · rw [Lit.eval_neg, et] at e; simp at e
  · obtain ⟨r, hr, er⟩ := kR (by omega)
    have h := sat_grid.1 hs 0 (b + 1) (by omega) (by omega)
    unfold alkCell at h
    rw [if_neg (by omega), if_pos rfl, Nat.add_sub_cancel, hr, show L.length + (b + 1) - 1 = t by omega, ho, sat_ocl] at h
    obtain ⟨m, hm, e⟩ := h (by simp [oneg])
    simp only [oneg, Option.map_some, List.mem_cons, Option.some.injEq, List.not_mem_nil, or_false] at hm
    rcases hm with rfl | rfl
    · rw [er] at e; simp at e
    · rw [Lit.eval_neg, et] at e; simp at e

theorem adderALK_can {w : EV α → Bool} {L R out : List (Lit (EV α))} {p q : Nat} (hL : Can w L p) (hR : Can w R q) (hO : Can w out (p + q))
    (hp : p ≤ L.length) (hq : q ≤ R.length) : Sat w (adderALK L R out) := by
  rw [adderALK, sat_grid]
  intro i j _ _
  unfold alkCell
  split
  · simp
  · split
    · rw [sat_ocl]
      intro hn
      cases hr : R[j - 1]? with
      | none => simp [hr, oneg] at hn
      | some r =>
        cases ho : out[L.length + j - 1]? with
        | none => simp [ho, oneg] at hn
        | some o =>
          by_cases h : j ≤ q
          · exact ⟨r, by simp, by rw [hR _ _ hr]; simp; omega⟩
          · exact ⟨o.neg, by simp [oneg], by rw [Lit.eval_neg, hO _ _ ho]; simp; omega⟩
    · split
      · rw [sat_ocl]
        intro hn
        cases hr : L[i - 1]? with
        | none => simp [hr, oneg] at hn
        | some r =>
          cases ho : out[R.length + i - 1]? with
          | none => simp [ho, oneg] at hn
          | some o =>
            by_cases h : i ≤ p
            · exact ⟨r, by simp, by rw [hL _ _ hr]; simp; omega⟩
            · exact ⟨o.neg, by simp [oneg], by rw [Lit.eval_neg, hO _ _ ho]; simp; omega⟩
      · rw [sat_ocl]
        intro hn
        cases hl : L[i - 1]? with
        | none => simp [hl, oneg] at hn
        | some l =>
          cases hr : R[j - 1]? with
          | none => simp [hr, oneg] at hn
          | some r =>
            cases ho : out[i + j - 2]? with
            | none => simp [ho, oneg] at hn
            | some o =>
              by_cases h : i ≤ p
              · exact ⟨l, by simp, by rw [hL _ _ hl]; simp; omega⟩
              · by_cases h' : j ≤ q
                · exact ⟨r, by simp, by rw [hR _ _ hr]; simp; omega⟩
                · exact ⟨o.neg, by simp [oneg], by rw [Lit.eval_neg, hO _ _ ho]; simp; omega⟩

theorem adder_vars {L R out : List (Lit (EV α))} {rhs : Nat} : ∀ c, c ∈ adderAMK L R out rhs ∨ c ∈ adderALK L R out → ∀ l ∈ c,
    ∃ m ∈ L ++ R ++ out, m.var = l.var := by
  intro c hc l hl
  have key : ∀ (ls : List (Lit (EV α))) (i : Nat), (∀ m ∈ ls, m ∈ L ++ R ++ out) → (some l = ls[i]? ∨ some l = oneg ls[i]?) → ∃ m ∈ L ++ R ++ out, m.var = l.var := by
    intro ls i hls h
    rcases h with h | h
    · exact ⟨l, hls l (List.mem_of_getElem? h.symm), rfl⟩
    · obtain ⟨m, hm, e⟩ := oneg_var h.symm
      exact ⟨m, hls m (List.mem_of_getElem? hm), e⟩
  have kL := fun i => key L i (fun m hm => by simp [hm])
  have kR := fun i => key R i (fun m hm => by simp [hm])
  have kO := fun i => key out i (fun m hm => by simp [hm])
  rcases hc with hc | hc
  · obtain ⟨i, j, _, _, hc⟩ := mem_grid.1 hc
    unfold amkCell at hc
    repeat' split at hc
    all_goals first
      | (simp at hc; done)
      | (have := ocl_mem hc l hl
         simp only [List.mem_cons, List.not_mem_nil, or_false] at this
         first
          | (rcases this with h | h | h
             · exact kL _ (.inr h)
             · exact kR _ (.inr h)
             · exact kO _ (.inl h))
          | (rcases this with h | h
             · first | exact kL _ (.inr h) | exact kR _ (.inr h)
             · exact kO _ (.inl h)))
  · obtain ⟨i, j, _, _, hc⟩ := mem_grid.1 hc
    unfold alkCell at hc
    repeat' split at hc
    all_goals first
      | (simp at hc; done)
      | (have := ocl_mem hc l hl
         simp only [List.mem_cons, List.not_mem_nil, or_false] at this
         first
          | (rcases this with h | h | h
             · exact kL _ (.inl h)
             · exact kR _ (.inl h)
             · exact kO _ (.inr h))
          | (rcases this with h | h
             · first | exact kL _ (.inl h) | exact kR _ (.inl h)
             · exact kO _ (.inr h)))

/-- clauses relating the inputs `xs` to the unary outputs `ls` -/
structure TotSpec (up lo : Bool) (cap : Nat) (ls xs : List (Lit (EV α))) (k k' : Nat) (cs : List (Clause α)) : Prop where
  le : k ≤ k'
  vars : ∀ c ∈ cs, ∀ l ∈ c, (∃ m ∈ ls ++ xs, m.var = l.var) ∨ New k k' l.var
  soundU : up = true → ∀ w, Sat w cs → UP w ls (min (cnt w xs) cap)
  soundL : lo = true → ∀ w, Sat w cs → LO w ls (cnt w xs)
  complete : ∀ v, Can v ls (cnt v xs) → ∃ w, (∀ x, ¬New k k' x → w x = v x) ∧ Sat w cs

theorem tot_leaf (up lo : Bool) (cap k : Nat) (x : Lit (EV α)) : TotSpec up lo cap [x] [x] k k [] where
  le := Nat.le_refl _
  vars := by simp
  soundU := fun _ w _ => (can_single w x).up.mono (Nat.min_le_left _ _)
  soundL := fun _ w _ => (can_single w x).lo
  complete := fun v _ => ⟨v, fun _ _ => rfl, by simp⟩

/-- two children and an adder -/
theorem tot_combine {b : Bound} {rhs : Nat} {L R xL xR outs : List (Lit (EV α))} {k k0 k1 k2 : Nat} {cL cR : List (Clause α)}
    (TL : TotSpec b.up b.lo (rhs + 1) L xL k0 k1 cL) (TR : TotSpec b.up b.lo (rhs + 1) R xR k1 k2 cR) (hk : k ≤ k0)
    (hLl : L.length = xL.length) (hRl : R.length = xR.length) (hol : outs.length = L.length + R.length)
    (hoL : ∀ l ∈ L, Old k0 l) (hoR : ∀ l ∈ R, Old k0 l) (hxL : ∀ l ∈ xL, Old k l) (hxR : ∀ l ∈ xR, Old k l) (hoo : ∀ l ∈ outs, Old k l)
    (hnew : ∀ l ∈ L ++ R, l ∈ xL ++ xR ∨ New k k0 l.var)
    (hset : ∀ v : EV α → Bool, ∃ v1, (∀ x, ¬New k k0 x → v1 x = v x) ∧ Can v1 L (cnt v xL) ∧ Can v1 R (cnt v xR)) :
    TotSpec b.up b.lo (rhs + 1) outs (xL ++ xR) k k2
      ((if b.up then adderAMK L R outs rhs else []) ++ (if b.lo then adderALK L R outs else []) ++ cL ++ cR) := by
  have hle1 := TL.le
  have hle2 := TR.le
  have hcL : ∀ w, cnt w xL ≤ L.length := fun w => by rw [hLl]; exact cnt_le w xL
  have hcR : ∀ w, cnt w xR ≤ R.length := fun w => by rw [hRl]; exact cnt_le w xR
  have hLR : ∀ l ∈ L ++ R, (∃ m ∈ outs ++ (xL ++ xR), m.var = l.var) ∨ New k k2 l.var := by
    intro l hl
    rcases hnew l hl with h | h
    · exact .inl ⟨l, List.mem_append_right _ h, rfl⟩
    · exact .inr (h.mono (Nat.le_refl _) (by omega))
  refine ⟨by omega, ?_, ?_, ?_, ?_⟩
  · intro c hc l hl
    simp only [List.mem_append] at hc
    rcases hc with ((hc | hc) | hc) | hc
    · have hc' : c ∈ adderAMK L R outs rhs := by split at hc <;> simp_all
      obtain ⟨m, hm, e⟩ := adder_vars c (.inl hc') l hl
      rcases List.mem_append.1 hm with hm | hm
      · rw [← e]; exact hLR m hm
      · exact .inl ⟨m, List.mem_append_left _ hm, e⟩
    · have hc' : c ∈ adderALK L R outs := by split at hc <;> simp_all
      obtain ⟨m, hm, e⟩ := adder_vars (rhs := 0) c (.inr hc') l hl
      rcases List.mem_append.1 hm with hm | hm
      · rw [← e]; exact hLR m hm
      · exact .inl ⟨m, List.mem_append_left _ hm, e⟩
    · rcases TL.vars c hc l hl with ⟨m, hm, e⟩ | h
      · rcases List.mem_append.1 hm with hm | hm
        · rw [← e]; exact hLR m (List.mem_append_left _ hm)
        · exact .inl ⟨m, by simp [hm], e⟩
      · exact .inr (h.mono hk hle2)
    · rcases TR.vars c hc l hl with ⟨m, hm, e⟩ | h
      · rcases List.mem_append.1 hm with hm | hm
        · rw [← e]; exact hLR m (List.mem_append_right _ hm)
        · exact .inl ⟨m, by simp [hm], e⟩
      · exact .inr (h.mono (by omega) (Nat.le_refl _))
  · intro hb w hw
    simp only [hb, if_true, sat_append] at hw
    rw [cnt_append]
    exact adderAMK_up hw.1.1.1 hol (TL.soundU hb w hw.1.2) (TR.soundU hb w hw.2) (hcL w) (hcR w)
  · intro hb w hw
    simp only [hb, if_true, sat_append] at hw
    rw [cnt_append]
    exact adderALK_lo hw.1.1.2 hol (TL.soundL hb w hw.1.2) (TR.soundL hb w hw.2) (hcL w) (hcR w)
  · intro v hv
    obtain ⟨v1, hv1, hL, hR⟩ := hset v
    have c1 : ∀ ls : List (Lit (EV α)), (∀ l ∈ ls, Old k l) → cnt v1 ls = cnt v ls := fun ls h =>
      cnt_congr fun l hl => hv1 _ ((h l hl).not_new (Nat.le_refl _))
    obtain ⟨w1, hw1, hs1⟩ := TL.complete v1 (by rw [c1 xL hxL]; exact hL)
    have hR1 : Can w1 R (cnt w1 xR) := by
      rw [cnt_congr (w := v) fun l hl => by rw [hw1 _ ((hxR l hl).not_new hk), hv1 _ ((hxR l hl).not_new (Nat.le_refl _))]]
      exact (can_congr fun l hl => hw1 _ ((hoR l hl).not_new (Nat.le_refl _))).2 hR
    obtain ⟨w2, hw2, hs2⟩ := TR.complete w1 hR1
    have hw2v1 : ∀ x, ¬New k0 k2 x → w2 x = v1 x := fun x hx => by
      rw [hw2 x fun h => hx (h.mono hle1 (Nat.le_refl _)), hw1 x fun h => hx (h.mono (Nat.le_refl _) hle2)]
    have hL2 : Can w2 L (cnt v xL) := (can_congr fun l hl => hw2v1 _ ((hoL l hl).not_new (Nat.le_refl _))).2 hL
    have hR2 : Can w2 R (cnt v xR) := (can_congr fun l hl => hw2v1 _ ((hoR l hl).not_new (Nat.le_refl _))).2 hR
    have hw2v : ∀ x, ¬New k k2 x → w2 x = v x := fun x hx => by
      rw [hw2v1 x fun h => hx (h.mono hk (Nat.le_refl _)), hv1 x fun h => hx (h.mono (Nat.le_refl _) (by omega))]
    have hO2 : Can w2 outs (cnt v xL + cnt v xR) := by
      rw [← cnt_append]
      exact (can_congr fun l hl => hw2v _ ((hoo l hl).not_new (Nat.le_refl _))).2 hv
    refine ⟨w2, hw2v, ?_⟩
    simp only [sat_append]
    have hs1' : Sat w2 cL := (sat_congr fun c hc l hl => by
      rcases TL.vars c hc l hl with ⟨m, hm, e⟩ | ⟨n, e, a, b⟩
      · rw [← e]
        refine hw2 _ ?_
        rcases List.mem_append.1 hm with hm | hm
        · exact (hoL m hm).not_new hle1
        · exact (hxL m hm).not_new (by omega)
      · exact hw2 _ (by rw [e]; rintro ⟨n', e', a', b'⟩; cases e'; omega)).2 hs1
    refine ⟨⟨⟨?_, ?_⟩, hs1'⟩, hs2⟩
    · split
      · exact adderAMK_can hL2 hR2 hO2
      · simp
    · split
      · exact adderALK_can hL2 hR2 hO2 (hcL v) (hcR v)
      · simp

theorem set_two (v : EV α → Bool) (k a b p q : Nat) : ∃ v1, (∀ x, ¬New k (k + a + b) x → v1 x = v x) ∧ Can v1 (auxs k a) p ∧ Can v1 (auxs (k + a) b) q := by
  refine ⟨setNew v k (k + a + b) (fun i => if i < a then decide (i < p) else decide (i - a < q)), fun x hx => setNew_off hx, ?_, ?_⟩
  · apply can_auxs
    intro i hi
    rw [setNew_on (by omega), if_pos hi]
  · apply can_auxs
    intro i hi
    rw [show k + a + i = k + (a + i) by omega, setNew_on (by omega), if_neg (by omega)]
    simp

theorem toCNF_ok (rhs : Nat) (b : Bound) : ∀ (s : Nat) (outs : List (Lit (EV α))) (k : Nat) (ins : List (Lit (EV α))), 2 ≤ s → outs.length = s → s ≤ ins.length →
    (∀ l ∈ outs, Old k l) → (∀ l ∈ ins, Old k l) →
    TotSpec b.up b.lo (rhs + 1) outs (ins.take s) k (toCNF rhs b s outs k ins).k (toCNF rhs b s outs k ins).cls ∧
    (toCNF rhs b s outs k ins).ins = ins.drop s := by
  intro s
  induction s using Nat.strong_induction_on with
  | _ s ih =>
    intro outs k ins hs hol hin hoo hoi
    rw [toCNF]
    have htake : ∀ m, ∀ l ∈ ins.take m, Old k l := fun m l hl => hoi l (List.mem_of_mem_take hl)
    have hdrop : ∀ m, ∀ l ∈ ins.drop m, Old k l := fun m l hl => hoi l (List.mem_of_mem_drop hl)
    by_cases h2 : s = 2
    · subst h2
      obtain ⟨x, y, r, rfl⟩ : ∃ x y r, ins = x :: y :: r := by
        match ins, hin with
        | x :: y :: r, _ => exact ⟨x, y, r, rfl⟩
      have := tot_combine (outs := outs) (rhs := rhs) (b := b) (tot_leaf b.up b.lo (rhs + 1) k x) (tot_leaf b.up b.lo (rhs + 1) k y) (Nat.le_refl _) rfl rfl (by simp [hol])
        (fun l hl => by simp at hl; subst hl; exact hoi _ (by simp)) (fun l hl => by simp at hl; subst hl; exact hoi _ (by simp))
        (fun l hl => by simp at hl; subst hl; exact hoi _ (by simp)) (fun l hl => by simp at hl; subst hl; exact hoi _ (by simp)) hoo
        (fun l hl => .inl hl) (fun v => ⟨v, fun _ _ => rfl, can_single v x, can_single v y⟩)
      simpa [totChild] using this
    · by_cases h3 : s = 3
      · subst h3
        obtain ⟨x, r, rfl⟩ : ∃ x r, ins = x :: r := by
          match ins, hin with
          | x :: r, _ => exact ⟨x, r, rfl⟩
        simp only [List.length_cons] at hin
        have hor : ∀ l ∈ r, Old (k + 2) l := fun l hl => (hoi l (by simp [hl])).mono (by omega)
        obtain ⟨T, hT⟩ := ih 2 (by omega) (auxs k 2) (k + 2) r (by omega) (by simp) (by omega) (old_auxs (Nat.le_refl _)) hor
        have := tot_combine (outs := outs) (rhs := rhs) (b := b) (k := k) (tot_leaf b.up b.lo (rhs + 1) (k + 2) x) T (by omega) rfl (by simp; omega) (by simp [hol])
          (fun l hl => by simp at hl; subst hl; exact (hoi _ (by simp)).mono (by omega)) (old_auxs (Nat.le_refl _))
          (fun l hl => by simp at hl; subst hl; exact hoi _ (by simp)) (fun l hl => hoi l (List.mem_cons_of_mem _ (List.mem_of_mem_take hl))) hoo
          (fun l hl => by
            rcases List.mem_append.1 hl with hl | hl
            · exact .inl (List.mem_append_left _ hl)
            · obtain ⟨i, hi, rfl⟩ := mem_auxs.1 hl
              right; rw [new_al]; omega)
          (fun v => by
            obtain ⟨v1, h1, -, h3⟩ := set_two v k 0 2 0 (cnt v (r.take 2))
            refine ⟨v1, by simpa using h1, ?_, by simpa using h3⟩
            have e : cnt v [x] = cnt v1 [x] := cnt_congr fun l hl => by
              simp at hl; subst hl
              exact (h1 _ ((hoi l (by simp)).not_new (Nat.le_refl _))).symm
            rw [e]; exact can_single v1 x)
        simp only [totChild]
        simp only [show (3 / 2 = 1) = True by simp, show (3 - 3 / 2 = 1) = False by simp, if_true, if_false, List.take_succ_cons, List.take_zero,
          List.drop_succ_cons, List.drop_zero]
        rw [dif_neg (show ¬(1 < 3 / 2) by omega), dif_pos (show 3 - 3 / 2 > 1 ∧ 3 - 3 / 2 < 3 by omega)]
        simp only [show 3 - 3 / 2 = 2 by rfl, List.append_nil, hT]
        exact ⟨by simpa using this, trivial⟩
      · -- both children are inner nodes
        have h4 : 4 ≤ s := by omega
        have hsl : 2 ≤ s / 2 := by omega
        have hsr : 2 ≤ s - s / 2 := by omega
        simp only [totChild]
        rw [if_neg (by omega)]
        simp only
        rw [if_neg (by omega)]
        simp only
        rw [dif_pos (by omega)]
        generalize hsl' : s / 2 = sl at *
        generalize hsr' : s - sl = sr at *
        have hio : ∀ l ∈ ins, Old (k + sl + sr) l := fun l hl => (hoi l hl).mono (by omega)
        obtain ⟨T1, h1⟩ := ih sl (by omega) (auxs k sl) (k + sl + sr) ins hsl (by simp) (by omega) (old_auxs (by omega)) hio
        generalize hR1 : toCNF rhs b sl (auxs k sl) (k + sl + sr) ins = R1 at *
        have hle1 := T1.le
        obtain ⟨T2, h2⟩ := ih sr (by omega) (auxs (k + sl) sr) R1.k R1.ins hsr (by simp) (by rw [h1]; simp; omega)
          (fun l hl => (old_auxs (Nat.le_refl _) l hl).mono hle1) (fun l hl => by rw [h1] at hl; exact (hio l (List.mem_of_mem_drop hl)).mono hle1)
        rw [dif_pos (by omega)]
        generalize hR2 : toCNF rhs b sr (auxs (k + sl) sr) R1.k R1.ins = R2 at *
        rw [h1] at T2 h2
        have hts : ins.take s = ins.take sl ++ (ins.drop sl).take sr := by
          rw [show s = sl + sr by omega, List.take_add]
        rw [hts]
        refine ⟨?_, by rw [h2, List.drop_drop]; congr 1; omega⟩
        refine tot_combine T1 T2 (by omega) (by simp; omega) (by simp; omega) (by simp; omega) (old_auxs (by omega)) (old_auxs (by omega))
          (fun l hl => hoi l (List.mem_of_mem_take hl)) (fun l hl => hoi l (List.mem_of_mem_drop (List.mem_of_mem_take hl))) hoo ?_ ?_
        · intro l hl
          right
          rcases List.mem_append.1 hl with hl | hl <;> obtain ⟨i, hi, rfl⟩ := mem_auxs.1 hl <;> rw [new_al] <;> omega
        · intro v
          exact set_two v k sl sr _ _

end Verif.Enc
