import Verif.PB.Swc
/-! # Exactness of the adder networks -/
set_option linter.unusedSectionVars false
namespace Verif.PB
open Verif Verif.Enc
variable {α : Type}

/-- value of a list of buckets, the first bucket has weight one -/
def bval (w : EV α → Bool) : List (List (Lit (EV α))) → Nat
  | [] => 0
  | b :: bs => cnt w b + 2 * bval w bs

/-- value of a binary number, `none` is false -/
def oval (w : EV α → Bool) : List (Option (Lit (EV α))) → Nat
  | [] => 0
  | o :: os => cnt w o.toList + 2 * oval w os

def numval : List Bool → Nat
  | [] => 0
  | b :: bs => b.toNat + 2 * numval bs

/-- `b` has been reduced to `rest` plus twice `carries` -/
structure RedSpec (k : Nat) (b rest carries : List (Lit (EV α))) (cs : List (Clause α)) (k' : Nat) : Prop where
  le : k ≤ k'
  outs : ∀ l ∈ rest ++ carries, l ∈ b ∨ New k k' l.var
  vars : ∀ c ∈ cs, ∀ l ∈ c, (∃ m ∈ b, m.var = l.var) ∨ New k k' l.var
  sound : ∀ w, Sat w cs → cnt w b = cnt w rest + 2 * cnt w carries
  complete : ∀ v : EV α → Bool, ∃ w : EV α → Bool, (∀ x, ¬New k k' x → w x = v x) ∧ Sat w cs
  len : rest.length = if b.length = 0 then 0 else 1

theorem fa_sat {w : EV α → Bool} {x y z s c : Lit (EV α)} :
    (Sat w (faSum x y z s ++ faCarry x y z c ++ faExtra c s x y z)) ↔ cnt w [x, y, z] = cnt w [s] + 2 * cnt w [c] := by
  simp only [faSum, faCarry, faExtra, sat_append, sat_cons, sat_nil, List.mem_cons, List.not_mem_nil, or_false, exists_eq_or_imp, exists_eq_left, Lit.eval_neg, cnt_cons, cnt_nil]
  cases x.eval w <;> cases y.eval w <;> cases z.eval w <;> cases s.eval w <;> cases c.eval w <;> simp

theorem ha_sat {w : EV α → Bool} {x y s c : Lit (EV α)} :
    (Sat w (haSum x y s ++ haCarry x y c)) ↔ cnt w [x, y] = cnt w [s] + 2 * cnt w [c] := by
  simp only [haSum, haCarry, sat_append, sat_cons, sat_nil, List.mem_cons, List.not_mem_nil, or_false, exists_eq_or_imp, exists_eq_left, Lit.eval_neg, cnt_cons, cnt_nil]
  cases x.eval w <;> cases y.eval w <;> cases s.eval w <;> cases c.eval w <;> simp

theorem fa_vars {x y z s c : Lit (EV α)} : ∀ cl ∈ faSum x y z s ++ faCarry x y z c ++ faExtra c s x y z, ∀ l ∈ cl, l.var = x.var ∨ l.var = y.var ∨ l.var = z.var ∨ l.var = s.var ∨ l.var = c.var := by
  intro cl hcl l hl
  simp only [faSum, faCarry, faExtra, List.mem_append, List.mem_cons, List.not_mem_nil, or_false] at hcl
  rcases hcl with (hcl | hcl) | hcl
  all_goals repeat' (rcases hcl with rfl | hcl)
  all_goals (try subst hcl)
  all_goals simp only [List.mem_cons, List.not_mem_nil, or_false] at hl
  all_goals repeat' (rcases hl with rfl | hl)
  all_goals (try subst hl)
  all_goals simp
theorem ha_vars {x y s c : Lit (EV α)} : ∀ cl ∈ haSum x y s ++ haCarry x y c, ∀ l ∈ cl, l.var = x.var ∨ l.var = y.var ∨ l.var = s.var ∨ l.var = c.var := by
  intro cl hcl l hl
  simp only [haSum, haCarry, List.mem_append, List.mem_cons, List.not_mem_nil, or_false] at hcl
  rcases hcl with hcl | hcl
  all_goals repeat' (rcases hcl with rfl | hcl)
  all_goals (try subst hcl)
  all_goals simp only [List.mem_cons, List.not_mem_nil, or_false] at hl
  all_goals repeat' (rcases hl with rfl | hl)
  all_goals (try subst hl)
  all_goals simp

/-- values for a sum and a carry -/
def setSC (v : EV α → Bool) (k n : Nat) : EV α → Bool := setNew v k (k + 2) fun i => if i = 0 then decide (n % 2 = 1) else decide (2 ≤ n)

theorem setSC_ok {v : EV α → Bool} {k n : Nat} (hn : n ≤ 3) : n = cnt (setSC v k n) [al k] + 2 * cnt (setSC v k n) [al (k + 1)] := by
  have h0 : setSC v k n (.aux k) = decide (n % 2 = 1) := by
    have := setNew_on (v := v) (k := k) (k' := k + 2) (g := fun i => if i = 0 then decide (n % 2 = 1) else decide (2 ≤ n)) (i := 0) (by omega)
    simpa [setSC] using this
  have h1 : setSC v k n (.aux (k + 1)) = decide (2 ≤ n) := by
    have := setNew_on (v := v) (k := k) (k' := k + 2) (g := fun i => if i = 0 then decide (n % 2 = 1) else decide (2 ≤ n)) (i := 1) (by omega)
    simpa [setSC] using this
  simp only [cnt_cons, cnt_nil, al_eval, h0, h1]
  rcases (by omega : n = 0 ∨ n = 1 ∨ n = 2 ∨ n = 3) with rfl | rfl | rfl | rfl <;> decide

theorem reduce_ok (k : Nat) (b : List (Lit (EV α))) : (∀ l ∈ b, Old k l) → RedSpec k b (reduce k b).rest (reduce k b).carries (reduce k b).cls (reduce k b).k := by
  induction k, b using reduce.induct with
  | case1 k => intro _; rw [reduce]; exact ⟨Nat.le_refl _, by simp, by simp, by simp, fun v => ⟨v, by simp, by simp⟩, by simp⟩
  | case2 k x => intro _; rw [reduce]; exact ⟨Nat.le_refl _, by simp, by simp, by simp, fun v => ⟨v, by simp, by simp⟩, by simp⟩
  | case3 k x y =>
    intro ho
    rw [reduce]
    refine ⟨by simp, ?_, ?_, fun w hw => ha_sat.1 hw, fun v => ⟨setSC v k (cnt v [x, y]), fun x hx => setNew_off hx, ?_⟩, by simp⟩
    · intro l hl
      simp only [List.cons_append, List.nil_append, List.mem_cons, List.not_mem_nil, or_false] at hl
      rcases hl with rfl | rfl <;> exact .inr (new_al.2 (by simp))
    · intro c hc l hl
      rcases ha_vars c hc l hl with h | h | h | h
      · exact .inl ⟨x, by simp, h.symm⟩
      · exact .inl ⟨y, by simp, h.symm⟩
      · exact .inr (by rw [h]; exact new_al.2 (by simp))
      · exact .inr (by rw [h]; exact new_al.2 (by simp))
    · rw [ha_sat, cnt_congr (v := setSC v k (cnt v [x, y])) (w := v) (ls := [x, y]) (fun l hl => setNew_off ((ho l hl).not_new (Nat.le_refl _)))]
      exact setSC_ok (Nat.le_trans (cnt_le _ _) (by simp))
  | case4 k x y z r ih =>
    intro ho
    rw [reduce]
    have ih := ih (by
      intro l hl
      rcases List.mem_append.1 hl with hl | hl
      · exact (ho l (by simp [hl])).mono (by omega)
      · simp at hl; subst hl; exact old_al (by omega))
    generalize reduce (k + 2) (r ++ [al k]) = q at *
    have hle := ih.le
    have hnew : ∀ {l : Lit (EV α)}, (∃ m ∈ r ++ [al k], m.var = l.var) ∨ New (k + 2) q.k l.var → (∃ m ∈ x :: y :: z :: r, m.var = l.var) ∨ New k q.k l.var := by
      rintro l (⟨m, hm, e⟩ | h)
      · rcases List.mem_append.1 hm with hm | hm
        · exact .inl ⟨m, by simp [hm], e⟩
        · simp at hm; subst hm; exact .inr (by rw [← e]; exact new_al.2 ⟨by omega, by omega⟩)
      · exact .inr (h.mono (by omega) (Nat.le_refl _))
    refine ⟨by dsimp only; omega, ?_, ?_, ?_, ?_, ?_⟩
    · intro l hl
      dsimp only at hl ⊢
      rcases List.mem_append.1 hl with hl | hl
      · rcases ih.outs l (List.mem_append_left _ hl) with h | h
        · rcases List.mem_append.1 h with h | h
          · exact .inl (by simp [h])
          · simp at h; subst h; exact .inr (new_al.2 ⟨by omega, by omega⟩)
        · exact .inr (h.mono (by omega) (Nat.le_refl _))
      · rcases List.mem_cons.1 hl with rfl | hl
        · exact .inr (new_al.2 ⟨by omega, by omega⟩)
        · rcases ih.outs l (List.mem_append_right _ hl) with h | h
          · rcases List.mem_append.1 h with h | h
            · exact .inl (by simp [h])
            · simp at h; subst h; exact .inr (new_al.2 ⟨by omega, by omega⟩)
          · exact .inr (h.mono (by omega) (Nat.le_refl _))
    · intro c hc l hl
      rcases List.mem_append.1 hc with hc | hc
      · rcases fa_vars c hc l hl with h | h | h | h | h
        · exact .inl ⟨x, by simp, h.symm⟩
        · exact .inl ⟨y, by simp, h.symm⟩
        · exact .inl ⟨z, by simp, h.symm⟩
        · exact .inr (by rw [h]; exact new_al.2 ⟨by omega, by dsimp only; omega⟩)
        · exact .inr (by rw [h]; exact new_al.2 ⟨by omega, by dsimp only; omega⟩)
      · exact hnew (ih.vars c hc l hl)
    · intro w hw
      rw [sat_append] at hw
      have h1 := fa_sat.1 hw.1
      have h2 := ih.sound w hw.2
      simp only [cnt_append, cnt_cons, cnt_nil] at h1 h2 ⊢
      omega
    · intro v
      obtain ⟨w, hoff, hs⟩ := ih.complete (setSC v k (cnt v [x, y, z]))
      refine ⟨w, fun u hu => ?_, ?_⟩
      · rw [hoff u (fun h => hu (h.mono (by omega) (Nat.le_refl _)))]
        exact setNew_off (fun h => hu (h.mono (Nat.le_refl _) (by dsimp only; omega)))
      · rw [sat_append]
        refine ⟨fa_sat.2 ?_, hs⟩
        have e1 : cnt w [x, y, z] = cnt v [x, y, z] := cnt_congr fun l hl => by
          have hl' : Old k l := ho l (by simp at hl ⊢; rcases hl with h | h | h <;> simp [h])
          rw [hoff _ ((hl'.mono (by omega : k ≤ k + 2)).not_new (Nat.le_refl _)), setSC, setNew_off (hl'.not_new (Nat.le_refl _))]
        have e2 : ∀ n, n < k + 2 → cnt w [al n] = cnt (setSC v k (cnt v [x, y, z])) [al n] := fun n hn => cnt_congr fun l hl => by
          simp at hl; subst hl; exact hoff _ ((old_al hn).not_new (Nat.le_refl _))
        rw [e1, e2 k (by omega), e2 (k + 1) (by omega)]
        exact setSC_ok (Nat.le_trans (cnt_le _ _) (by simp))
    · have := ih.len
      dsimp only
      rw [this]; simp

/-- the literals `os` hold the binary number which is the value of the buckets -/
structure TreeSpec (k : Nat) (bs : List (List (Lit (EV α)))) (os : List (Option (Lit (EV α)))) (cs : List (Clause α)) (k' : Nat) : Prop where
  le : k ≤ k'
  len : bs.length ≤ os.length
  outs : ∀ l, some l ∈ os → (∃ b ∈ bs, l ∈ b) ∨ New k k' l.var
  vars : ∀ c ∈ cs, ∀ l ∈ c, (∃ b ∈ bs, ∃ m ∈ b, m.var = l.var) ∨ New k k' l.var
  sound : ∀ w, Sat w cs → bval w bs = oval w os
  complete : ∀ v : EV α → Bool, ∃ w : EV α → Bool, (∀ x, ¬New k k' x → w x = v x) ∧ Sat w cs

theorem passOn_val {w : EV α → Bool} {n : Nat} {c : List (Lit (EV α))} (h : c.length + 1 ≤ n) (bs : List (List (Lit (EV α)))) : bval w (passOn n c bs) = cnt w c + bval w bs := by
  cases bs with
  | nil =>
    simp only [passOn]
    split
    · simp [bval]
    · obtain rfl : c = [] := List.eq_nil_of_length_eq_zero (by omega)
      simp [bval]
  | cons b bs => simp [passOn, bval]; omega
theorem passOn_len {n : Nat} {c : List (Lit (EV α))} (bs : List (List (Lit (EV α)))) : bs.length ≤ (passOn n c bs).length := by
  cases bs <;> simp [passOn]
theorem passOn_mem {n : Nat} {c : List (Lit (EV α))} {bs : List (List (Lit (EV α)))} {b : List (Lit (EV α))} (hb : b ∈ passOn n c bs) {l : Lit (EV α)} (hl : l ∈ b) : l ∈ c ∨ ∃ b ∈ bs, l ∈ b := by
  cases bs with
  | nil =>
    simp only [passOn] at hb
    split at hb
    · simp at hb; subst hb; exact .inl hl
    · simp at hb
  | cons a bs =>
    rcases List.mem_cons.1 hb with rfl | hb
    · rcases List.mem_append.1 hl with h | h
      · exact .inr ⟨a, by simp, h⟩
      · exact .inl h
    · exact .inr ⟨b, by simp [hb], hl⟩

theorem adderTree_ok (k : Nat) (bs : List (List (Lit (EV α)))) : (∀ b ∈ bs, ∀ l ∈ b, Old k l) →
    TreeSpec k bs (adderTree k bs).1 (adderTree k bs).2.1 (adderTree k bs).2.2 := by
  induction k, bs using adderTree.induct with
  | case1 k => intro _; rw [adderTree]; exact ⟨Nat.le_refl _, by simp, by simp, by simp, fun w _ => rfl, fun v => ⟨v, by simp, by simp⟩⟩
  | case2 k b rest hb ih =>
    intro ho
    rw [adderTree, if_pos hb]
    have ih := ih (fun c hc => ho c (List.mem_cons_of_mem _ hc))
    obtain rfl : b = [] := by simpa using hb
    refine ⟨ih.le, by simpa using ih.len, ?_, ?_, ?_, ih.complete⟩
    · intro l hl
      rcases ih.outs l (by simpa using hl) with ⟨b, hb, h⟩ | h
      · exact .inl ⟨b, by simp [hb], h⟩
      · exact .inr h
    · intro c hc l hl
      rcases ih.vars c hc l hl with ⟨b, hb, h⟩ | h
      · exact .inl ⟨b, by simp [hb], h⟩
      · exact .inr h
    · intro w hw
      simp only [bval, oval, ih.sound w hw]; simp
  | case3 k b rest hb r ih =>
    intro ho
    rw [adderTree, if_neg hb]
    have hr := reduce_ok k b (ho b (by simp))
    have hlen := reduce_carries k b
    have hb0 : b.length ≠ 0 := by intro h; exact hb (by rw [List.isEmpty_iff]; exact List.eq_nil_of_length_eq_zero h)
    rw [if_neg hb0] at hlen
    have hrl := hr.len
    rw [if_neg hb0] at hrl
    change RedSpec k b r.rest r.carries r.cls r.k at hr
    change r.carries.length + 1 ≤ b.length at hlen
    change r.rest.length = 1 at hrl
    have hrle := hr.le
    have hold : ∀ l ∈ r.carries, Old r.k l := fun l hl => by
      rcases hr.outs l (List.mem_append_right _ hl) with h | ⟨n, e, _, h⟩
      · exact (ho b (by simp) l h).mono hrle
      · intro m hm; rw [e] at hm; cases hm; exact h
    have ih := ih (by
      intro c hc l hl
      rcases passOn_mem hc hl with h | ⟨b', hb', h⟩
      · exact hold l h
      · exact (ho b' (by simp [hb']) l h).mono hrle)
    change TreeSpec r.k (passOn b.length r.carries rest) (adderTree r.k (passOn b.length r.carries rest)).1 (adderTree r.k (passOn b.length r.carries rest)).2.1 (adderTree r.k (passOn b.length r.carries rest)).2.2 at ih
    show TreeSpec k (b :: rest) (r.rest.head? :: (adderTree r.k (passOn b.length r.carries rest)).1) (r.cls ++ (adderTree r.k (passOn b.length r.carries rest)).2.1) (adderTree r.k (passOn b.length r.carries rest)).2.2
    generalize adderTree r.k (passOn b.length r.carries rest) = q at *
    have hle := ih.le
    obtain ⟨s, hs⟩ : ∃ s, r.rest = [s] := List.length_eq_one_iff.1 hrl
    have hcar : ∀ l ∈ r.carries, (∃ b' ∈ b :: rest, ∃ m ∈ b', m.var = l.var) ∨ New k q.2.2 l.var := fun l hl => by
      rcases hr.outs l (List.mem_append_right _ hl) with h | h
      · exact .inl ⟨b, by simp, l, h, rfl⟩
      · exact .inr (h.mono (Nat.le_refl _) hle)
    refine ⟨by omega, ?_, ?_, ?_, ?_, ?_⟩
    · have h1 := ih.len
      have h2 := passOn_len (n := b.length) (c := r.carries) rest
      simp only [List.length_cons]; omega
    · intro l hl
      rw [hs] at hl
      rcases List.mem_cons.1 hl with h | h
      · simp at h; subst h
        rcases hr.outs l (by rw [hs]; simp) with h | h
        · exact .inl ⟨b, by simp, h⟩
        · exact .inr (h.mono (Nat.le_refl _) hle)
      · rcases ih.outs l h with ⟨b', hb', h⟩ | h
        · rcases passOn_mem hb' h with h | ⟨b'', hb'', h⟩
          · rcases hr.outs l (List.mem_append_right _ h) with h | h
            · exact .inl ⟨b, by simp, h⟩
            · exact .inr (h.mono (Nat.le_refl _) hle)
          · exact .inl ⟨b'', by simp [hb''], h⟩
        · exact .inr (h.mono hrle (Nat.le_refl _))
    · intro c hc l hl
      rcases List.mem_append.1 hc with hc | hc
      · rcases hr.vars c hc l hl with ⟨m, hm, e⟩ | h
        · exact .inl ⟨b, by simp, m, hm, e⟩
        · exact .inr (h.mono (Nat.le_refl _) hle)
      · rcases ih.vars c hc l hl with ⟨b', hb', m, hm, e⟩ | h
        · rcases passOn_mem hb' hm with h | ⟨b'', hb'', h⟩
          · rw [← e]; exact hcar m h
          · exact .inl ⟨b'', by simp [hb''], m, h, e⟩
        · exact .inr (h.mono hrle (Nat.le_refl _))
    · intro w hw
      rw [sat_append] at hw
      have h1 := hr.sound w hw.1
      have h2 := ih.sound w hw.2
      rw [passOn_val hlen] at h2
      simp only [bval, oval, hs, List.head?_cons, Option.toList_some] at h1 h2 ⊢
      omega
    · intro v
      obtain ⟨w1, hoff1, hs1⟩ := hr.complete v
      obtain ⟨w, hoff, hs2⟩ := ih.complete w1
      refine ⟨w, fun u hu => ?_, ?_⟩
      · rw [hoff u (fun h => hu (h.mono hrle (Nat.le_refl _))), hoff1 u (fun h => hu (h.mono (Nat.le_refl _) hle))]
      · rw [sat_append]
        refine ⟨(sat_congr fun c hc l hl => ?_).2 hs1, hs2⟩
        apply hoff
        rcases hr.vars c hc l hl with ⟨m, hm, e⟩ | ⟨n, e, _, h⟩
        · rw [← e]; exact ((ho b (by simp) m hm).mono hrle).not_new (Nat.le_refl _)
        · rintro ⟨n', e', h', _⟩; rw [e] at e'; cases e'; omega

/-! ### comparison -/

theorem lteTail_ok {w : EV α → Bool} : ∀ {xs : List (Option (Lit (EV α)))} {ys : List Bool}, xs.length = ys.length →
    match lteTail xs ys with
    | none => oval w xs ≠ numval ys
    | some c => (∃ l ∈ c, l.eval w = true) ↔ oval w xs ≠ numval ys
  | [], [], _ => by simp [lteTail, oval, numval]
  | some x :: xs, true :: ys, h => by
    have ih := lteTail_ok (w := w) (xs := xs) (ys := ys) (by simpa using h)
    have hb : cnt w (some x).toList = if x.eval w then 1 else 0 := by simp [cnt_cons]
    simp only [lteTail, oval, numval, hb]
    cases hq : lteTail xs ys with
    | none => rw [hq] at ih; simp only [Option.map_none] at ih ⊢; cases x.eval w <;> simp <;> omega
    | some c =>
      rw [hq] at ih
      simp only [Option.map_some, List.mem_cons, exists_eq_or_imp, ih, Lit.eval_neg]
      cases x.eval w <;> simp <;> omega
  | none :: xs, true :: ys, h => by
    simp only [lteTail, oval, numval, Option.toList_none, cnt_nil, Bool.toNat_true]; omega
  | some x :: xs, false :: ys, h => by
    have ih := lteTail_ok (w := w) (xs := xs) (ys := ys) (by simpa using h)
    have hb : cnt w (some x).toList = if x.eval w then 1 else 0 := by simp [cnt_cons]
    simp only [lteTail, oval, numval, hb]
    cases hq : lteTail xs ys with
    | none => rw [hq] at ih; simp only [Option.map_none] at ih ⊢; cases x.eval w <;> simp <;> omega
    | some c =>
      rw [hq] at ih
      simp only [Option.map_some, List.mem_cons, exists_eq_or_imp, ih]
      cases x.eval w <;> simp <;> omega
  | none :: xs, false :: ys, h => by
    have ih := lteTail_ok (w := w) (xs := xs) (ys := ys) (by simpa using h)
    simp only [lteTail, oval, numval, Option.toList_none, cnt_nil, Bool.toNat_false]
    cases hq : lteTail xs ys with
    | none => rw [hq] at ih; simp only at ih ⊢; omega
    | some c => rw [hq] at ih; simp only at ih ⊢; rw [ih]; omega

theorem lte_ok {w : EV α → Bool} : ∀ {xs : List (Option (Lit (EV α)))} {ys : List Bool}, xs.length = ys.length →
    (Sat w (lte xs ys) ↔ oval w xs ≤ numval ys)
  | [], [], _ => by simp [lte, oval, numval]
  | some x :: xs, false :: ys, h => by
    have ih := lte_ok (w := w) (xs := xs) (ys := ys) (by simpa using h)
    have it := lteTail_ok (w := w) (xs := xs) (ys := ys) (by simpa using h)
    have hb : cnt w (some x).toList = if x.eval w then 1 else 0 := by simp [cnt_cons]
    simp only [lte, sat_append, oval, numval, hb, Bool.toNat_false, ih]
    cases hq : lteTail xs ys with
    | none => rw [hq] at it; simp only [sat_nil, true_and] at it ⊢; cases x.eval w <;> simp <;> omega
    | some c =>
      rw [hq] at it
      simp only [sat_cons, sat_nil, and_true, List.mem_append, List.mem_cons, List.not_mem_nil, or_false, or_and_right, exists_or, exists_eq_left, it, Lit.eval_neg] at it ⊢
      cases x.eval w <;> simp <;> omega
  | none :: xs, false :: ys, h => by
    have ih := lte_ok (w := w) (xs := xs) (ys := ys) (by simpa using h)
    simp only [lte, oval, numval, Option.toList_none, cnt_nil, Bool.toNat_false, ih]; omega
  | x :: xs, true :: ys, h => by
    have ih := lte_ok (w := w) (xs := xs) (ys := ys) (by simpa using h)
    have hb : cnt w x.toList ≤ 1 := by cases x <;> simp [cnt_cons]; split <;> omega
    have : lte (x :: xs) (true :: ys) = lte xs ys := by cases x <;> rfl
    rw [this, ih]
    simp only [oval, numval, Bool.toNat_true]; omega

theorem lteTail_mem : ∀ {xs : List (Option (Lit (EV α)))} {ys : List Bool} {c : Clause α}, lteTail xs ys = some c → ∀ l ∈ c, ∃ m, some m ∈ xs ∧ m.var = l.var
  | [], ys, c, h, l, hl => by simp [lteTail] at h; subst h; simp at hl
  | some x :: xs, true :: ys, c, h, l, hl => by
    simp only [lteTail, Option.map_eq_some_iff] at h
    obtain ⟨d, hd, rfl⟩ := h
    rcases List.mem_cons.1 hl with rfl | hl
    · exact ⟨x, by simp, rfl⟩
    · obtain ⟨m, hm, e⟩ := lteTail_mem hd l hl; exact ⟨m, by simp [hm], e⟩
  | none :: xs, true :: ys, c, h, l, hl => by simp [lteTail] at h
  | some x :: xs, false :: ys, c, h, l, hl => by
    simp only [lteTail, Option.map_eq_some_iff] at h
    obtain ⟨d, hd, rfl⟩ := h
    rcases List.mem_cons.1 hl with rfl | hl
    · exact ⟨l, by simp, rfl⟩
    · obtain ⟨m, hm, e⟩ := lteTail_mem hd l hl; exact ⟨m, by simp [hm], e⟩
  | none :: xs, false :: ys, c, h, l, hl => by
    simp only [lteTail] at h
    obtain ⟨m, hm, e⟩ := lteTail_mem h l hl; exact ⟨m, by simp [hm], e⟩
  | x :: xs, [], c, h, l, hl => by cases x <;> (simp [lteTail] at h; subst h; simp at hl)

theorem lte_vars : ∀ {xs : List (Option (Lit (EV α)))} {ys : List Bool} {c : Clause α}, c ∈ lte xs ys → ∀ l ∈ c, ∃ m, some m ∈ xs ∧ m.var = l.var
  | [], _, c, h, l, hl => by simp [lte] at h
  | x :: xs, [], c, h, l, hl => by cases x <;> simp [lte] at h
  | some x :: xs, false :: ys, c, h, l, hl => by
    simp only [lte, List.mem_append] at h
    rcases h with h | h
    · cases hq : lteTail xs ys with
      | none => rw [hq] at h; simp at h
      | some d =>
        rw [hq] at h; simp at h; subst h
        rcases List.mem_append.1 hl with hl | hl
        · obtain ⟨m, hm, e⟩ := lteTail_mem hq l hl; exact ⟨m, by simp [hm], e⟩
        · simp at hl; subst hl; exact ⟨x, by simp, rfl⟩
    · obtain ⟨m, hm, e⟩ := lte_vars h l hl; exact ⟨m, by simp [hm], e⟩
  | none :: xs, y :: ys, c, h, l, hl => by
    simp only [lte] at h
    obtain ⟨m, hm, e⟩ := lte_vars h l hl; exact ⟨m, by simp [hm], e⟩
  | some x :: xs, true :: ys, c, h, l, hl => by
    simp only [lte] at h
    obtain ⟨m, hm, e⟩ := lte_vars h l hl; exact ⟨m, by simp [hm], e⟩

/-! ### numbers -/

theorem numval_append (a : List Bool) (b : Bool) : numval (a ++ [b]) = numval a + 2 ^ a.length * b.toNat := by
  induction a with
  | nil => simp [numval]
  | cons c a ih => simp only [List.cons_append, numval, ih, List.length_cons, Nat.pow_succ]; rw [Nat.mul_add, Nat.mul_right_comm, Nat.mul_comm 2 (2 ^ a.length * b.toNat)]; omega
theorem numBitsHigh_ok : ∀ (n num : Nat), (numBitsHigh n num).length = n ∧ (num < 2 ^ n → numval (numBitsHigh n num).reverse = num)
  | 0, num => by simp [numBitsHigh, numval]; omega
  | n + 1, num => by
    rw [numBitsHigh]
    split
    · obtain ⟨h1, h2⟩ := numBitsHigh_ok n num
      refine ⟨by simp [h1], fun _ => ?_⟩
      rw [List.reverse_cons, numval_append, h2 ‹_›]; simp
    · obtain ⟨h1, h2⟩ := numBitsHigh_ok n (num - 2 ^ n)
      refine ⟨by simp [h1], fun h => ?_⟩
      rw [Nat.pow_succ] at h
      rw [List.reverse_cons, numval_append, h2 (by omega), List.length_reverse, h1]; simp; omega
theorem numToBits_ok {n num : Nat} (h : num < 2 ^ n) : (numToBits n num).length = n ∧ numval (numToBits n num) = num := by
  simp only [numToBits, List.length_reverse]
  exact ⟨(numBitsHigh_ok n num).1, (numBitsHigh_ok n num).2 h⟩

theorem ldInt_fold (x : Nat) : ∀ n, x < 2 ^ n → x < 2 ^ ((List.range n).foldl (fun acc i => if x.testBit i then i + 1 else acc) 0)
  | 0, h => by simpa using h
  | n + 1, h => by
    rw [List.range_succ, List.foldl_append]
    simp only [List.foldl_cons, List.foldl_nil]
    split
    · exact h
    · refine ldInt_fold x n ?_
      apply Nat.lt_pow_two_of_testBit
      intro i hi
      rcases Nat.lt_or_ge n i with h' | h'
      · exact Nat.testBit_lt_two_pow (Nat.lt_of_lt_of_le h (Nat.pow_le_pow_right (by omega) (by omega)))
      · obtain rfl : i = n := by omega
        exact Bool.eq_false_iff.2 ‹_›
theorem ldInt_ok {x : Nat} (h : x < 2 ^ 31) : x < 2 ^ ldInt x := ldInt_fold x 31 h

theorem bits_succ (n : Nat) (ts : WTerms α) : bits (n + 1) ts = (ts.filter (fun t => t.1.testBit 0)).map (·.2) :: bits n (ts.map fun t => (t.1 / 2, t.2)) := by
  simp only [bits, List.range_succ_eq_map, List.map_cons, List.map_map, List.cons.injEq, true_and]
  apply List.map_congr_left
  intro i _
  simp only [Function.comp, List.filter_map, List.map_map, Nat.succ_eq_add_one, Nat.testBit_succ]
  rfl
theorem wsum_half (w : EV α → Bool) (ts : WTerms α) : wsum w ts = cnt w ((ts.filter (fun t => t.1.testBit 0)).map (·.2)) + 2 * wsum w (ts.map fun t => (t.1 / 2, t.2)) := by
  induction ts with
  | nil => rfl
  | cons t ts ih =>
    simp only [wsum, List.map_cons, List.filter_cons, Nat.testBit_zero] at ih ⊢
    rw [ih]
    by_cases h : t.1 % 2 = 1
    · simp only [h, decide_true, if_true, List.map_cons, cnt_cons]; split <;> omega
    · simp only [h, decide_false]; split <;> simp <;> omega
theorem bits_val (w : EV α → Bool) : ∀ (n : Nat) (ts : WTerms α), (∀ t ∈ ts, t.1 < 2 ^ n) → bval w (bits n ts) = wsum w ts
  | 0, ts, h => by
    have : ∀ ts : WTerms α, (∀ t ∈ ts, t.1 < 2 ^ 0) → wsum w ts = 0 := by
      intro ts
      induction ts with
      | nil => intro _; rfl
      | cons t ts ih =>
        intro h
        have h0 := h t (by simp)
        simp only [wsum, ih fun s hs => h s (List.mem_cons_of_mem _ hs)]
        split <;> omega
    rw [this ts h]; rfl
  | n + 1, ts, h => by
    rw [bits_succ, bval, bits_val w n _ (by
      intro t ht
      obtain ⟨s, hs, rfl⟩ := List.mem_map.1 ht
      have := h s hs
      rw [Nat.pow_succ] at this
      dsimp only; omega), ← wsum_half]

theorem adder_exact {k rhs : Nat} {ts : WTerms α} (hr : rhs < 2 ^ 31) (hw : ∀ t ∈ ts, t.1 ≤ rhs) (ho : ∀ t ∈ ts, Old k t.2) :
    Exact k (adder k rhs ts).2 (ts.map (·.2)) (adder k rhs ts).1 (fun v => wsum v ts ≤ rhs) := by
  have hmem : ∀ b ∈ bits (ldInt rhs) ts, ∀ l ∈ b, l ∈ ts.map (·.2) := by
    intro b hb l hl
    simp only [bits, List.mem_map, List.mem_range] at hb
    obtain ⟨i, _, rfl⟩ := hb
    obtain ⟨t, ht, rfl⟩ := List.mem_map.1 hl
    exact List.mem_map.2 ⟨t, List.mem_of_mem_filter ht, rfl⟩
  have hold : ∀ l ∈ ts.map (·.2), Old k l := by
    intro l hl; obtain ⟨t, ht, rfl⟩ := List.mem_map.1 hl; exact ho t ht
  have T := adderTree_ok k (bits (ldInt rhs) ts) (fun b hb l hl => hold l (hmem b hb l hl))
  have hbits : (bits (ldInt rhs) ts).length = ldInt rhs := by simp [bits]
  unfold adder
  simp only
  generalize adderTree k (bits (ldInt rhs) ts) = q at *
  have hnum := numToBits_ok (n := q.1.length) (num := rhs) (Nat.lt_of_lt_of_le (ldInt_ok hr) (Nat.pow_le_pow_right (by omega) (by rw [← hbits]; exact T.len)))
  have hval := fun w => bits_val w (ldInt rhs) ts (fun t ht => Nat.lt_of_le_of_lt (hw t ht) (ldInt_ok hr))
  have hiff : ∀ w, Sat w q.2.1 → (Sat w (lte q.1 (numToBits q.1.length rhs)) ↔ wsum w ts ≤ rhs) := fun w hw => by
    rw [lte_ok hnum.1.symm, hnum.2, ← T.sound w hw, hval]
  refine ⟨T.le, ?_, ?_, ?_⟩
  · intro c hc l hl
    rcases List.mem_append.1 hc with hc | hc
    · rcases T.vars c hc l hl with ⟨b, hb, m, hm, e⟩ | h
      · exact .inl ⟨m, hmem b hb m hm, e⟩
      · exact .inr h
    · obtain ⟨m, hm, e⟩ := lte_vars hc l hl
      rcases T.outs m hm with ⟨b, hb, h⟩ | h
      · exact .inl ⟨m, hmem b hb m h, e⟩
      · exact .inr (by rw [← e]; exact h)
  · intro w hw
    rw [sat_append] at hw
    exact (hiff w hw.1).1 hw.2
  · intro v hv
    obtain ⟨w, hoff, hs⟩ := T.complete v
    refine ⟨w, hoff, sat_append.2 ⟨hs, (hiff w hs).2 ?_⟩⟩
    rw [wsum_congr (w := v) fun t ht => hoff _ ((ho t ht).not_new (Nat.le_refl _))]; exact hv

end Verif.PB
