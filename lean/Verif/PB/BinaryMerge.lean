import Verif.PB.Adder
import Verif.Encoding.CCProps
/-! # Exactness of the binary merge encoding -/
set_option linter.unusedSectionVars false
namespace Verif.PB
open Verif Verif.Enc
variable {α : Type}

theorem unaryAdder_ok {k : Nat} {A B : List (Lit (EV α))} (ho : ∀ l ∈ A ++ B, Old k l) :
    MergeSpec .io (A.length + B.length) A B (unaryAdder k A B).out k (unaryAdder k A B).k (unaryAdder k A B).cls (fun p q => p ≤ A.length ∧ q ≤ B.length) (fun p q => p + q) := by
  unfold unaryAdder
  by_cases hA : A.isEmpty
  · rw [if_pos hA]
    obtain rfl : A = [] := by simpa using hA
    refine ⟨Nat.le_refl _, by simp, fun l hl => .inl (by simpa using hl), by simp, ?_, by simp [Dir.lo], ?_⟩
    · rintro _ w p q ⟨hp, _⟩ _ _ hq; simp at hp; subst hp; simpa using hq
    · rintro v p q ⟨hp, _⟩ _ hq; simp at hp; subst hp; exact ⟨v, by simp, by simp, by simpa using hq⟩
  rw [if_neg hA]
  by_cases hB : B.isEmpty
  · rw [if_pos hB]
    obtain rfl : B = [] := by simpa using hB
    refine ⟨Nat.le_refl _, by simp, fun l hl => .inl (by simpa using hl), by simp, ?_, by simp [Dir.lo], ?_⟩
    · rintro _ w p q ⟨_, hp⟩ _ hq _; simp at hp; subst hp; simpa using hq
    · rintro v p q ⟨_, hp⟩ hq _; simp at hp; subst hp; exact ⟨v, by simp, by simp, by simpa using hq⟩
  rw [if_neg hB]
  dsimp only
  have D := directMerger_ok (m := A.length + B.length) ho
  simp only [directMerger] at D
  generalize hU : (List.range A.length).flatMap (fun a => (List.range B.length).flatMap fun b => ocl [oneg A[a]?, oneg B[b]?, (auxs k (A.length + B.length))[a + b + 1]?])
      ++ (List.range B.length).flatMap (fun i => ocl [oneg B[i]?, (auxs k (A.length + B.length))[i]?])
      ++ (List.range A.length).flatMap (fun i => ocl [oneg A[i]?, (auxs k (A.length + B.length))[i]?]) = U
  generalize hD : ((List.range (min (A.length + B.length) A.length)).flatMap (fun i => ocl [oneg A[i]?, (auxs k (A.length + B.length))[i]?])
    ++ (List.range (min (A.length + B.length) B.length)).flatMap (fun i => ocl [oneg B[i]?, (auxs k (A.length + B.length))[i]?])
    ++ (List.range A.length).flatMap (fun i => (List.range B.length).flatMap fun j =>
        if i + j + 1 < A.length + B.length then ocl [oneg A[i]?, oneg B[j]?, (auxs k (A.length + B.length))[i + j + 1]?] else [])) = D' at D
  have hm : ∀ c, c ∈ U ↔ c ∈ D' := by
    intro c
    rw [← hU, ← hD, Nat.min_eq_right (by omega), Nat.min_eq_right (by omega)]
    simp only [List.mem_append, List.mem_flatMap, List.mem_range]
    constructor
    · rintro ((⟨i, hi, j, hj, h⟩ | h) | h)
      · exact .inr ⟨i, hi, j, hj, by rw [if_pos (by omega)]; exact h⟩
      · exact .inl (.inr h)
      · exact .inl (.inl h)
    · rintro ((h | h) | ⟨i, hi, j, hj, h⟩)
      · exact .inr h
      · exact .inl (.inr h)
      · rw [if_pos (by omega)] at h; exact .inl (.inl ⟨i, hi, j, hj, h⟩)
  have hsat : ∀ w : EV α → Bool, Sat w U ↔ Sat w D' := fun w => by simp only [Sat, hm]
  exact ⟨D.le, D.len, D.outs, fun c hc => D.vars c ((hm c).1 hc), fun h w p q a b => D.soundU h w p q a ((hsat w).1 b), fun h => by simp [Dir.lo] at h,
    fun v p q a b c => by obtain ⟨w, h1, h2, h3⟩ := D.complete v p q a b c; exact ⟨w, h1, (hsat w).2 h2, h3⟩⟩

theorem bmTotalizer_ok (k : Nat) (x : List (Lit (EV α))) : (∀ l ∈ x, Old k l) →
    SortSpec .io x.length x (bmTotalizer k x).out k (bmTotalizer k x).k (bmTotalizer k x).cls := by
  induction k, x using bmTotalizer.induct with
  | case1 k => intro _; rw [bmTotalizer]; exact ⟨Nat.le_refl _, by simp, by simp, by simp, fun _ _ _ => up_nil, fun _ _ _ => lo_nil, fun v => ⟨v, by simp, by simp, can_of up_nil lo_nil⟩⟩
  | case2 k a => intro _; rw [bmTotalizer]; exact ⟨Nat.le_refl _, by simp, by simp, by simp, fun _ w _ => (can_single w a).up, fun _ w _ => (can_single w a).lo, fun v => ⟨v, by simp, by simp, can_single v a⟩⟩
  | case3 k a b r x' h q1 ih1 _ ih2 =>
    intro ho
    rw [bmTotalizer]
    change SortSpec .io x'.length x' (unaryAdder (bmTotalizer q1.k (x'.drop h)).k q1.out (bmTotalizer q1.k (x'.drop h)).out).out k
      (unaryAdder (bmTotalizer q1.k (x'.drop h)).k q1.out (bmTotalizer q1.k (x'.drop h)).out).k
      (q1.cls ++ (bmTotalizer q1.k (x'.drop h)).cls ++ (unaryAdder (bmTotalizer q1.k (x'.drop h)).k q1.out (bmTotalizer q1.k (x'.drop h)).out).cls)
    have S1 : SortSpec .io (x'.take h).length (x'.take h) q1.out (k + x'.length) q1.k q1.cls := ih1 (fun l hl => (ho l (List.mem_of_mem_take hl)).mono (by omega))
    have hle1 := S1.le
    have S2 := ih2 (fun l hl => (ho l (List.mem_of_mem_drop hl)).mono (by omega))
    change SortSpec .io (x'.drop h).length (x'.drop h) (bmTotalizer q1.k (x'.drop h)).out q1.k (bmTotalizer q1.k (x'.drop h)).k (bmTotalizer q1.k (x'.drop h)).cls at S2
    generalize bmTotalizer q1.k (x'.drop h) = q2 at *
    have hle2 := S2.le
    have hsplit : ∀ v : EV α → Bool, cnt v x' = cnt v (x'.take h) + cnt v (x'.drop h) := fun v => by rw [← cnt_append, List.take_append_drop]
    have old1 : ∀ l ∈ q1.out, Old q1.k l := fun l hl => by
      rcases S1.outs l hl with h | ⟨n, e, _, h⟩
      · exact (ho l (List.mem_of_mem_take h)).mono (by omega)
      · intro m hm; rw [e] at hm; cases hm; exact h
    have old2 : ∀ l ∈ q2.out, Old q2.k l := fun l hl => by
      rcases S2.outs l hl with h | ⟨n, e, _, h⟩
      · exact (ho l (List.mem_of_mem_drop h)).mono (by omega)
      · intro m hm; rw [e] at hm; cases hm; exact h
    have M := unaryAdder_ok (k := q2.k) (A := q1.out) (B := q2.out) (fun l hl => (List.mem_append.1 hl).elim (fun h => (old1 l h).mono hle2) (old2 l))
    generalize unaryAdder q2.k q1.out q2.out = q at *
    have hle3 := M.le
    have c1 : ∀ v : EV α → Bool, cnt v (x'.take h) ≤ q1.out.length := fun v => by rw [S1.len]; exact cnt_le _ _
    have c2 : ∀ v : EV α → Bool, cnt v (x'.drop h) ≤ q2.out.length := fun v => by rw [S2.len]; exact cnt_le _ _
    refine ⟨by omega, ?_, ?_, ?_, ?_, by simp [Dir.lo], ?_⟩
    · rw [M.len, S1.len, S2.len, ← List.length_append, List.take_append_drop]
    · intro l hl
      rcases M.outs l hl with h | h
      · rcases List.mem_append.1 h with h | h
        · rcases S1.outs l h with h | h
          · exact .inl (List.mem_of_mem_take h)
          · exact .inr (h.mono (by omega) (by omega))
        · rcases S2.outs l h with h | h
          · exact .inl (List.mem_of_mem_drop h)
          · exact .inr (h.mono (by omega) (by omega))
      · exact .inr (h.mono (by omega) (by omega))
    · intro c hc l hl
      rcases List.mem_append.1 hc with hc | hc
      · rcases List.mem_append.1 hc with hc | hc
        · rcases S1.vars c hc l hl with ⟨m, hm, e⟩ | h
          · exact .inl ⟨m, List.mem_of_mem_take hm, e⟩
          · exact .inr (h.mono (by omega) (by omega))
        · rcases S2.vars c hc l hl with ⟨m, hm, e⟩ | h
          · exact .inl ⟨m, List.mem_of_mem_drop hm, e⟩
          · exact .inr (h.mono (by omega) (by omega))
      · rcases M.vars c hc l hl with ⟨m, hm, e⟩ | h
        · rcases List.mem_append.1 hm with hm | hm
          · rcases S1.outs m hm with h | h
            · exact .inl ⟨m, List.mem_of_mem_take h, e⟩
            · exact .inr (by rw [← e]; exact h.mono (by omega) (by omega))
          · rcases S2.outs m hm with h | h
            · exact .inl ⟨m, List.mem_of_mem_drop h, e⟩
            · exact .inr (by rw [← e]; exact h.mono (by omega) (by omega))
        · exact .inr (h.mono (by omega) (by omega))
    · intro hd w hw
      rw [sat_append, sat_append] at hw
      rw [hsplit]
      exact M.soundU hd w _ _ ⟨c1 w, c2 w⟩ hw.2 (S1.soundU hd w hw.1.1) (S2.soundU hd w hw.1.2)
    · intro v
      obtain ⟨w1, o1, s1, n1⟩ := S1.complete v
      obtain ⟨w2, o2, s2, n2⟩ := S2.complete w1
      have e1 : cnt w1 (x'.drop h) = cnt v (x'.drop h) := cnt_congr fun l hl => o1 _ ((ho l (List.mem_of_mem_drop hl)).not_new (by omega))
      rw [e1] at n2
      have n1' : Can w2 q1.out (cnt v (x'.take h)) := (can_congr fun l hl => o2 _ ((old1 l hl).not_new (Nat.le_refl _))).2 n1
      obtain ⟨w3, o3, s3, n3⟩ := M.complete w2 _ _ ⟨c1 v, c2 v⟩ n1' n2
      refine ⟨w3, fun y hy => ?_, ?_, by rw [hsplit]; exact n3⟩
      · rw [o3 y (fun h => hy (h.mono (by omega) (by omega))), o2 y (fun h => hy (h.mono (by omega) (by omega))), o1 y (fun h => hy (h.mono (by omega) (by omega)))]
      · rw [sat_append, sat_append]
        refine ⟨⟨?_, ?_⟩, s3⟩
        · refine (sat_congr fun c hc l hl => ?_).2 s1
          have : ∀ j j', q1.k ≤ j → ¬New j j' l.var := fun j j' hj => by
            rcases S1.vars c hc l hl with ⟨m, hm, e⟩ | ⟨n, e, _, h⟩
            · rw [← e]; exact (ho m (List.mem_of_mem_take hm)).not_new (by omega)
            · rintro ⟨n', e', h', _⟩; rw [e] at e'; cases e'; omega
          rw [o3 _ (this _ _ (by omega)), o2 _ (this _ _ (by omega))]
        · refine (sat_congr fun c hc l hl => ?_).2 s2
          have : ¬New q2.k q.k l.var := by
            rcases S2.vars c hc l hl with ⟨m, hm, e⟩ | ⟨n, e, _, h⟩
            · rw [← e]; exact (ho m (List.mem_of_mem_drop hm)).not_new (by omega)
            · rintro ⟨n', e', h', _⟩; rw [e] at e'; cases e'; omega
          rw [o3 _ this]

/-- the literal that switches the constraint off is true -/
def gacT (w : EV α → Bool) (gac : Option (Lit (EV α))) : Prop := ∃ g, gac = some g ∧ g.eval w = true

theorem gacT_congr {v w : EV α → Bool} {gac : Option (Lit (EV α))} (h : ∀ g, gac = some g → v g.var = w g.var) : gacT v gac ↔ gacT w gac := by
  constructor
  · rintro ⟨g, e, h'⟩; exact ⟨g, e, by rw [← eval_congr_var (h g e)]; exact h'⟩
  · rintro ⟨g, e, h'⟩; exact ⟨g, e, by rw [eval_congr_var (h g e)]; exact h'⟩

theorem sat_bound {w : EV α → Bool} {gac : Option (Lit (EV α))} {out : List (Lit (EV α))} {i : Nat} (hi : i < out.length) :
    Sat w (ocl (gac.toList.map some ++ [oneg out[i]?])) ↔ gacT w gac ∨ out[i].eval w = false := by
  rw [List.getElem?_eq_getElem hi]
  cases gac with
  | none => simp [ocl, oneg, gacT, Lit.eval_neg]
  | some g => simp [ocl, oneg, gacT, Lit.eval_neg]
theorem mem_bound {gac : Option (Lit (EV α))} {out : List (Lit (EV α))} {i : Nat} {c : Clause α} (hc : c ∈ ocl (gac.toList.map some ++ [oneg out[i]?])) :
    ∀ l ∈ c, (∃ m ∈ out ++ gac.toList, m.var = l.var) := by
  intro l hl
  have := ocl_mem hc l hl
  rcases List.mem_append.1 this with h | h
  · obtain ⟨g, hg, e⟩ := List.mem_map.1 h
    cases e
    exact ⟨l, List.mem_append_right _ hg, rfl⟩
  · simp at h
    obtain ⟨m, hm, e⟩ := oneg_var h.symm
    exact ⟨m, List.mem_append_left _ (List.mem_of_getElem? hm), e⟩

theorem can_min {w : EV α → Bool} {ls : List (Lit (EV α))} {n : Nat} (h : Can w ls n) : Can w ls (min n ls.length) := fun i l hl => by
  have hi : i < ls.length := (List.getElem?_eq_some_iff.1 hl).1
  rw [h i l hl, decide_eq_decide]; omega

/-- one step of the loop: `out` is the unary sum of the bucket `b` and the carries `C`, which is less than `kk` unless the literal `gac` is true -/
structure NodeSpec (gac : Option (Lit (EV α))) (k kk : Nat) (C b out : List (Lit (EV α))) (cs : List (Clause α)) (k' : Nat) (short : Prop) : Prop where
  le : k ≤ k'
  len : short → C.length ≤ kk → out.length ≤ kk
  outs : ∀ l ∈ out, l ∈ b ++ C ∨ New k k' l.var
  vars : ∀ c ∈ cs, ∀ l ∈ c, (∃ m ∈ b ++ C ++ gac.toList, m.var = l.var) ∨ New k k' l.var
  sound : ∀ w c, Sat w cs → ¬gacT w gac → UP w C c → c ≤ C.length → c < kk → UP w out (cnt w b + c) ∧ cnt w b + c ≤ out.length ∧ cnt w b + c < kk
  complete : ∀ (v : EV α → Bool) c, Can v C c → c ≤ C.length → (gacT v gac ∨ cnt v b + c < kk) →
    ∃ w : EV α → Bool, (∀ x, ¬New k k' x → w x = v x) ∧ Sat w cs ∧ ∃ u, u ≤ cnt v b + c ∧ u ≤ out.length ∧ Can w out u

theorem bmNode_ok {cfg : BmCfg} {gac : Option (Lit (EV α))} {k kk : Nat} {C b : List (Lit (EV α))} (hk : 0 < kk) (hb : ∀ l ∈ b, Old k l) (hC : ∀ l ∈ C, Old k l)
    (hg : ∀ g, gac = some g → Old k g) (hlen : cfg.watchdog = false → C.length ≤ kk) :
    NodeSpec gac k kk C b (bmNode [] cfg gac k C kk b).out (bmNode [] cfg gac k C kk b).cls (bmNode [] cfg gac k C kk b).k (cfg.watchdog = false) := by
  have hcard : ∃ n, (cfg.watchdog = false → n ≤ kk) ∧ n ≤ b.length ∧ min kk b.length ≤ n ∧ SortSpec .io n b (if cfg.watchdog then bmTotalizer k b else sort [] .io kk k b).out k (if cfg.watchdog then bmTotalizer k b else sort [] .io kk k b).k
      (if cfg.watchdog then bmTotalizer k b else sort [] .io kk k b).cls := by
    cases cfg.watchdog
    · exact ⟨min kk b.length, fun _ => by omega, by omega, by omega, sort_ok .io b.length kk k b (Nat.le_refl _) hk hb⟩
    · exact ⟨b.length, by simp, by omega, by omega, bmTotalizer_ok k b hb⟩
  unfold bmNode
  obtain ⟨n, hn1, hn2, hn3, S⟩ := hcard
  generalize (if cfg.watchdog then bmTotalizer k b else sort [] .io kk k b) = card at *
  dsimp only
  have hle := S.le
  have hSl := S.len
  generalize hc1 : (if kk ≤ b.length then ocl (gac.toList.map some ++ [oneg card.out[kk - 1]?]) else []) = c1
  have c1v : ∀ c ∈ c1, ∀ l ∈ c, ∃ m ∈ card.out ++ gac.toList, m.var = l.var := by
    intro c hc
    rw [← hc1] at hc
    split at hc
    · exact mem_bound hc
    · simp at hc
  have c1s : ∀ w : EV α → Bool, Sat w c1 → ¬gacT w gac → UP w card.out (cnt w b) → cnt w b < kk := by
    intro w hs hgw hup
    have := cnt_le w b
    by_contra hcon
    rw [if_pos (by omega)] at hc1
    rw [← hc1, sat_bound (by omega)] at hs
    rcases hs with h | h
    · exact hgw h
    · rw [hup (kk - 1) _ (List.getElem?_eq_getElem (by omega)) (by omega)] at h; simp at h
  have c1c : ∀ (w : EV α → Bool) (u : Nat), Can w card.out u → (gacT w gac ∨ u < kk) → Sat w c1 := by
    intro w u hcan h
    rw [← hc1]
    split
    · rw [sat_bound (by omega)]
      rcases h with h | h
      · exact .inl h
      · right
        rw [hcan (kk - 1) _ (List.getElem?_eq_getElem (by omega))]
        simp; omega
    · simp
  have gkeep : ∀ {v w : EV α → Bool} {j j' : Nat}, k ≤ j → (∀ x, ¬New j j' x → w x = v x) → (gacT w gac ↔ gacT v gac) := fun hj hw =>
    gacT_congr fun g e => hw _ ((hg g e).not_new hj)
  have outOld : ∀ l ∈ card.out, Old card.k l := fun l hl => by
    rcases S.outs l hl with h | ⟨n, e, _, h⟩
    · exact (hb l h).mono hle
    · intro m hm; rw [e] at hm; cases hm; exact h
  have cardVars : ∀ c ∈ card.cls ++ c1, ∀ l ∈ c, (∃ m ∈ b ++ gac.toList, m.var = l.var) ∨ New k card.k l.var := by
    intro c hc l hl
    rcases List.mem_append.1 hc with hc | hc
    · rcases S.vars c hc l hl with ⟨m, hm, e⟩ | h
      · exact .inl ⟨m, List.mem_append_left _ hm, e⟩
      · exact .inr h
    · obtain ⟨m, hm, e⟩ := c1v c hc l hl
      rcases List.mem_append.1 hm with hm | hm
      · rcases S.outs m hm with h | h
        · exact .inl ⟨m, List.mem_append_left _ h, e⟩
        · exact .inr (by rw [← e]; exact h)
      · exact .inl ⟨m, List.mem_append_right _ hm, e⟩
  by_cases hCe : C.isEmpty
  · rw [if_pos hCe]
    obtain rfl : C = [] := by simpa using hCe
    refine ⟨hle, fun h _ => by rw [hSl]; exact hn1 h, ?_, ?_, ?_, ?_⟩
    · simpa using S.outs
    · simpa using cardVars
    · intro w c hs hgw _ hc0 _
      simp at hc0; subst hc0
      rw [sat_append] at hs
      have hu := S.soundU rfl w hs.1
      have h1 := c1s w hs.2 hgw hu
      have h2 := cnt_le w b
      exact ⟨by simpa using hu, by dsimp only; omega, by omega⟩
    · intro v c _ hc0 hor
      simp at hc0; subst hc0
      obtain ⟨w, o, s, n⟩ := S.complete v
      refine ⟨w, o, sat_append.2 ⟨s, c1c w _ n (by rw [gkeep (Nat.le_refl _) o]; simpa using hor)⟩, min (cnt v b) card.out.length, by omega, by dsimp only; omega, can_min n⟩
  rw [if_neg hCe]
  by_cases hoe : card.out.isEmpty
  · rw [if_pos hoe]
    have h0 : card.out.length = 0 := by simpa using hoe
    have hb0 : b = [] := List.eq_nil_of_length_eq_zero (by omega)
    subst hb0
    refine ⟨hle, fun _ h => h, ?_, ?_, ?_, ?_⟩
    · intro l hl; exact .inl (by simpa using hl)
    · intro c hc l hl
      rcases cardVars c hc l hl with ⟨m, hm, e⟩ | h
      · exact .inl ⟨m, by simp at hm ⊢; exact .inr hm, e⟩
      · exact .inr h
    · intro w c _ _ hup hcl hck
      simpa using ⟨hup, hcl, hck⟩
    · intro v c hcan hcl hor
      obtain ⟨w, o, s, n⟩ := S.complete v
      refine ⟨w, o, sat_append.2 ⟨s, ?_⟩, c, by simp, hcl, (can_congr fun l hl => o _ ((hC l hl).not_new (Nat.le_refl _))).2 hcan⟩
      rw [← hc1, if_neg (by simp; omega)]; simp
  rw [if_neg hoe]
  have hmg : ∃ n', (cfg.watchdog = false → n' ≤ kk) ∧ (n' = min kk (card.out.length + C.length) ∨ (cfg.watchdog = true ∧ n' = card.out.length + C.length)) ∧
      MergeSpec .io n' card.out C (if cfg.watchdog then unaryAdder card.k card.out C else merge .io kk card.k card.out C).out card.k
        (if cfg.watchdog then unaryAdder card.k card.out C else merge .io kk card.k card.out C).k (if cfg.watchdog then unaryAdder card.k card.out C else merge .io kk card.k card.out C).cls
        (fun p q => p ≤ card.out.length ∧ q ≤ C.length) (fun p q => p + q) := by
    have hol : ∀ l ∈ card.out ++ C, Old card.k l := fun l hl => (List.mem_append.1 hl).elim (outOld l) (fun h => (hC l h).mono hle)
    cases hwd : cfg.watchdog
    · exact ⟨_, fun _ => Nat.min_le_left _ _, .inl rfl, merge_ok .io _ kk card.k card.out C (Nat.le_refl _) hk (by have := hn1 hwd; omega) (hlen hwd) hol⟩
    · exact ⟨_, by simp, .inr ⟨rfl, rfl⟩, unaryAdder_ok hol⟩
  obtain ⟨n', hn', hn'', M⟩ := hmg
  generalize (if cfg.watchdog then unaryAdder card.k card.out C else merge .io kk card.k card.out C) = mg at *
  have hle2 := M.le
  have hMl := M.len
  generalize hc2 : (if kk = mg.out.length ∨ (cfg.watchdog = true ∧ kk ≤ mg.out.length) then ocl (gac.toList.map some ++ [oneg mg.out[kk - 1]?]) else []) = c2
  have mgv : ∀ l ∈ mg.out, l ∈ b ++ C ∨ New k mg.k l.var := fun l hl => by
    rcases M.outs l hl with h | h
    · rcases List.mem_append.1 h with h | h
      · rcases S.outs l h with h | h
        · exact .inl (List.mem_append_left _ h)
        · exact .inr (h.mono (Nat.le_refl _) hle2)
      · exact .inl (List.mem_append_right _ h)
    · exact .inr (h.mono hle (Nat.le_refl _))
  refine ⟨by dsimp only; omega, fun h _ => by dsimp only; rw [hMl]; exact hn' h, mgv, ?_, ?_, ?_⟩
  · intro c hc l hl
    rcases List.mem_append.1 hc with hc | hc
    · rcases List.mem_append.1 hc with hc | hc
      · rcases cardVars c hc l hl with ⟨m, hm, e⟩ | h
        · exact .inl ⟨m, by simp at hm ⊢; rcases hm with h | h <;> simp [h], e⟩
        · exact .inr (h.mono (Nat.le_refl _) hle2)
      · rcases M.vars c hc l hl with ⟨m, hm, e⟩ | h
        · rcases List.mem_append.1 hm with hm | hm
          · rcases S.outs m hm with h | h
            · exact .inl ⟨m, by simp [h], e⟩
            · exact .inr (by rw [← e]; exact h.mono (Nat.le_refl _) hle2)
          · exact .inl ⟨m, by simp [hm], e⟩
        · exact .inr (h.mono hle (Nat.le_refl _))
    · rw [← hc2] at hc
      split at hc
      · obtain ⟨m, hm, e⟩ := mem_bound hc l hl
        rcases List.mem_append.1 hm with hm | hm
        · rcases mgv m hm with h | h
          · exact .inl ⟨m, List.mem_append_left _ h, e⟩
          · exact .inr (by rw [← e]; exact h)
        · exact .inl ⟨m, List.mem_append_right _ hm, e⟩
      · simp at hc
  · intro w c hs hgw hup hcl hck
    simp only [sat_append] at hs
    obtain ⟨⟨⟨s1, s2⟩, s3⟩, s4⟩ := hs
    have hu := S.soundU rfl w s1
    have h1 := c1s w s2 hgw hu
    have h2 := cnt_le w b
    have hm := M.soundU rfl w (cnt w b) c ⟨by omega, hcl⟩ s3 hu hup
    have hkk : cnt w b + c < kk := by
      by_contra hcon
      have hex : kk = mg.out.length ∨ (cfg.watchdog = true ∧ kk ≤ mg.out.length) := by
        rcases hn'' with h | ⟨hw, h⟩
        · left; omega
        · right; exact ⟨hw, by omega⟩
      rw [if_pos hex] at hc2
      have hlt : kk - 1 < mg.out.length := by rcases hex with h | h <;> omega
      rw [← hc2, sat_bound hlt] at s4
      rcases s4 with h | h
      · exact hgw h
      · rw [hm (kk - 1) _ (List.getElem?_eq_getElem hlt) (by omega)] at h; simp at h
    refine ⟨hm, ?_, hkk⟩
    dsimp only
    rcases hn'' with h | ⟨hw, h⟩ <;> omega
  · intro v c hcan hcl hor
    obtain ⟨w1, o1, s1, n1⟩ := S.complete v
    have hcan1 : Can w1 C c := (can_congr fun l hl => o1 _ ((hC l hl).not_new (Nat.le_refl _))).2 hcan
    obtain ⟨w2, o2, s2, n2⟩ := M.complete w1 (min (cnt v b) card.out.length) c ⟨by omega, hcl⟩ (can_min n1) hcan1
    have g1 : gacT w1 gac ↔ gacT v gac := gkeep (Nat.le_refl _) o1
    have g2 : gacT w2 gac ↔ gacT w1 gac := gkeep hle o2
    refine ⟨w2, fun x hx => ?_, ?_, min (min (cnt v b) card.out.length + c) mg.out.length, by omega, by dsimp only; omega, can_min n2⟩
    · rw [o2 x (fun h => hx (h.mono hle (Nat.le_refl _))), o1 x (fun h => hx (h.mono (Nat.le_refl _) hle2))]
    · have keep : Sat w2 (card.cls ++ c1) := by
        refine (sat_congr fun c hc l hl => ?_).2 (sat_append.2 ⟨s1, c1c w1 _ n1 (by rw [g1]; rcases hor with h | h; exact .inl h; right; omega)⟩)
        apply o2
        rcases cardVars c hc l hl with ⟨m, hm, e⟩ | ⟨n, e, _, h⟩
        · rw [← e]
          rcases List.mem_append.1 hm with hm | hm
          · exact (hb m hm).not_new hle
          · exact (hg m (by simpa using hm)).not_new hle
        · rintro ⟨n', e', h', _⟩; rw [e] at e'; cases e'; omega
      rw [sat_append, sat_append]
      refine ⟨⟨keep, s2⟩, ?_⟩
      rw [← hc2]
      split
      · rename_i hex
        have hlt : kk - 1 < mg.out.length := by rcases hex with h | h <;> omega
        rw [sat_bound hlt, g2, g1]
        rcases hor with h | h
        · exact .inl h
        · right
          rw [n2 (kk - 1) _ (List.getElem?_eq_getElem hlt)]
          simp; omega
      · simp

/-- the bounds are halved from bucket to bucket -/
def Halving : List (Nat × List (Lit (EV α))) → Prop
  | [] => True
  | [a] => 0 < a.1
  | a :: b :: r => 0 < a.1 ∧ a.1 = 2 * b.1 ∧ Halving (b :: r)

structure LoopSpec (gac : Option (Lit (EV α))) (k kk : Nat) (C : List (Lit (EV α))) (bs : List (List (Lit (EV α)))) (cs : List (Clause α)) (k' : Nat) : Prop where
  le : k ≤ k'
  vars : ∀ c ∈ cs, ∀ l ∈ c, (∃ m ∈ bs.flatten ++ C ++ gac.toList, m.var = l.var) ∨ New k k' l.var
  sound : ∀ w c, Sat w cs → ¬gacT w gac → UP w C c → c ≤ C.length → c < kk → c + bval w bs < kk
  complete : ∀ (v : EV α → Bool) c, Can v C c → c ≤ C.length → (gacT v gac ∨ c + bval v bs < kk) →
    ∃ w : EV α → Bool, (∀ x, ¬New k k' x → w x = v x) ∧ Sat w cs

theorem bval_congr {v w : EV α → Bool} {bs : List (List (Lit (EV α)))} (h : ∀ b ∈ bs, ∀ l ∈ b, v l.var = w l.var) : bval v bs = bval w bs := by
  induction bs with
  | nil => rfl
  | cons b bs ih => rw [bval, bval, cnt_congr (h b (by simp)), ih fun c hc => h c (by simp [hc])]

theorem bmLoop_ok {cfg : BmCfg} {gac : Option (Lit (EV α))} : ∀ (bs : List (Nat × List (Lit (EV α)))) (k : Nat) (C : List (Lit (EV α))) (kk : Nat) (b : List (Lit (EV α))), Halving ((kk, b) :: bs) →
    (∀ p ∈ (kk, b) :: bs, ∀ l ∈ p.2, Old k l) → (∀ l ∈ C, Old k l) → (∀ g, gac = some g → Old k g) → (cfg.watchdog = false → C.length ≤ kk) →
    LoopSpec gac k kk C (((kk, b) :: bs).map (·.2)) (bmLoop [] cfg gac k C ((kk, b) :: bs)).1 (bmLoop [] cfg gac k C ((kk, b) :: bs)).2 := by
  intro bs
  induction bs with
  | nil =>
    intro k C kk b hh hb hC hg hlen
    have N := bmNode_ok (cfg := cfg) (gac := gac) (k := k) (kk := kk) (b := b) hh (hb _ List.mem_cons_self) hC hg hlen
    simp only [bmLoop]
    refine ⟨N.le, ?_, ?_, ?_⟩
    · simpa using N.vars
    · intro w c hs hgw hup hcl hck
      simp only [List.append_nil] at hs
      have := N.sound w c hs hgw hup hcl hck
      simp only [List.map_cons, List.map_nil, bval]; omega
    · intro v c hcan hcl hor
      obtain ⟨w, o, s, _⟩ := N.complete v c hcan hcl (by simp only [List.map_cons, List.map_nil, bval] at hor; rcases hor with h | h; exact .inl h; right; omega)
      exact ⟨w, o, by simpa using s⟩
  | cons p bs ih =>
    intro k C kk b hh hb hC hg hlen
    obtain ⟨kk', b'⟩ := p
    obtain ⟨hk0, hk2, hh'⟩ := hh
    dsimp only at hk0 hk2
    have N := bmNode_ok (cfg := cfg) (gac := gac) (k := k) (kk := kk) (b := b) hk0 (hb _ List.mem_cons_self) hC hg hlen
    have hle := N.le
    rw [bmLoop]
    dsimp only
    generalize bmNode [] cfg gac k C kk b = n at *
    have outOld : ∀ l ∈ n.out, Old n.k l := fun l hl => by
      rcases N.outs l hl with h | ⟨n, e, _, h⟩
      · rcases List.mem_append.1 h with h | h
        · exact (hb _ List.mem_cons_self l h).mono hle
        · exact (hC l h).mono hle
      · intro m hm; rw [e] at hm; cases hm; exact h
    have I := ih n.k (evens n.out) kk' b' hh' (fun p hp l hl => (hb p (List.mem_cons_of_mem _ hp) l hl).mono hle) (fun l hl => outOld l (mem_evens hl))
      (fun g e => (hg g e).mono hle) (fun h => by have := N.len h (hlen h); rw [evens_length]; omega)
    generalize bmLoop [] cfg gac n.k (evens n.out) ((kk', b') :: bs) = q at *
    have hle2 := I.le
    refine ⟨by omega, ?_, ?_, ?_⟩
    · intro c hc l hl
      rcases List.mem_append.1 hc with hc | hc
      · rcases N.vars c hc l hl with ⟨m, hm, e⟩ | h
        · refine .inl ⟨m, ?_, e⟩
          simp only [List.mem_append] at hm
          simp only [List.map_cons, List.flatten_cons, List.mem_append]
          rcases hm with (h | h) | h <;> simp [h]
        · exact .inr (h.mono (Nat.le_refl _) hle2)
      · rcases I.vars c hc l hl with ⟨m, hm, e⟩ | h
        · simp only [List.mem_append] at hm
          rcases hm with (h | h) | h
          · refine .inl ⟨m, ?_, e⟩
            rw [List.map_cons, List.flatten_cons]; simp only [List.mem_append]; exact .inl (.inl (.inr h))
          · rcases N.outs m (mem_evens h) with h | h
            · refine .inl ⟨m, ?_, e⟩
              rw [List.map_cons, List.flatten_cons]; simp only [List.mem_append] at h ⊢; rcases h with h | h <;> simp [h]
            · exact .inr (by rw [← e]; exact h.mono (Nat.le_refl _) hle2)
          · exact .inl ⟨m, List.mem_append_right _ h, e⟩
        · exact .inr (h.mono hle (Nat.le_refl _))
    · intro w c hs hgw hup hcl hck
      rw [sat_append] at hs
      obtain ⟨h1, h2, h3⟩ := N.sound w c hs.1 hgw hup hcl hck
      have := I.sound w ((cnt w b + c) / 2) hs.2 hgw (up_evens h1) (by rw [evens_length]; omega) (by omega)
      rw [List.map_cons, bval]; dsimp only; omega
    · intro v c hcan hcl hor
      rw [List.map_cons, bval] at hor
      dsimp only at hor
      obtain ⟨w1, o1, s1, u, hu1, hu2, hu3⟩ := N.complete v c hcan hcl (by rcases hor with h | h; exact .inl h; right; omega)
      have hb1 : bval w1 (((kk', b') :: bs).map (·.2)) = bval v (((kk', b') :: bs).map (·.2)) := bval_congr fun d hd l hl => by
        obtain ⟨p, hp, rfl⟩ := List.mem_map.1 hd
        exact o1 _ ((hb p (List.mem_cons_of_mem _ hp) l hl).not_new (Nat.le_refl _))
      obtain ⟨w, o, s⟩ := I.complete w1 (u / 2) (can_evens hu3) (by rw [evens_length]; omega) (by
        rw [hb1]
        rcases hor with h | h
        · exact .inl ((gacT_congr fun g e => o1 _ ((hg g e).not_new (Nat.le_refl _))).2 h)
        · right; omega)
      refine ⟨w, fun x hx => ?_, sat_append.2 ⟨(sat_congr fun c hc l hl => ?_).2 s1, s⟩⟩
      · rw [o x (fun h => hx (h.mono hle (Nat.le_refl _))), o1 x (fun h => hx (h.mono (Nat.le_refl _) hle2))]
      · apply o
        rcases N.vars c hc l hl with ⟨m, hm, e⟩ | ⟨n, e, _, h⟩
        · rw [← e]
          simp only [List.mem_append] at hm
          rcases hm with (h | h) | h
          · exact ((hb _ List.mem_cons_self m h).mono hle).not_new (Nat.le_refl _)
          · exact ((hC m h).mono hle).not_new (Nat.le_refl _)
          · exact ((hg m (by simpa using h)).mono hle).not_new (Nat.le_refl _)
        · rintro ⟨n', e', h', _⟩; rw [e] at e'; cases e'; omega

theorem halving_ks (m : Nat) (hm : 0 < m) : ∀ (n : Nat) (bs : List (List (Lit (EV α)))), Halving (((List.range (n + 1)).map fun i => m * 2 ^ (n - i)).zip bs)
  | 0, [] => by simp [Halving]
  | 0, b :: bs => by simp [Halving, hm]
  | n + 1, [] => by simp [Halving]
  | n + 1, b :: bs => by
    rw [List.range_succ_eq_map, List.map_cons, List.map_map, List.zip_cons_cons]
    have ih := halving_ks m hm n bs
    have e : ((fun i => m * 2 ^ (n + 1 - i)) ∘ Nat.succ) = fun i => m * 2 ^ (n - i) := by
      funext i; simp only [Function.comp, Nat.succ_eq_add_one]; rw [show n + 1 - (i + 1) = n - i by omega]
    rw [e]
    cases bs with
    | nil => simp only [List.zip_nil_right, Halving]; exact Nat.mul_pos hm (Nat.pow_pos (by omega))
    | cons b' bs =>
      rw [List.range_succ_eq_map, List.map_cons, List.zip_cons_cons] at ih ⊢
      refine ⟨Nat.mul_pos hm (Nat.pow_pos (by omega)), ?_, ih⟩
      simp only [Nat.sub_zero, Nat.pow_succ]
      rw [← Nat.mul_assoc, Nat.mul_comm]

theorem ks_eq {m p i : Nat} (h : i ≤ p) : (m * 2 ^ p + 2 ^ i - 1) / 2 ^ i = m * 2 ^ (p - i) := by
  have e : 2 ^ p = 2 ^ (p - i) * 2 ^ i := by rw [← Nat.pow_add]; congr 1; omega
  rw [e, ← Nat.mul_assoc, Nat.add_sub_assoc (Nat.pow_pos (by omega)), Nat.mul_comm, Nat.mul_add_div (Nat.pow_pos (by omega)),
    Nat.div_eq_of_lt (Nat.sub_lt (Nat.pow_pos (by omega)) (by omega)), Nat.add_zero]

theorem bmBuckets {gac : Option (Lit (EV α))} {L t n : Nat} {tl : Lit (EV α)} {ts : WTerms α} :
    ((List.range n).map fun i => bmBucket gac L t i tl ts).map (·.1) = bits n ((t, tl) :: ts.filter (fun s => !(gac.isSome && decide (L ≤ s.1)))) := by
  rw [List.map_map, bits]
  apply List.map_congr_left
  intro i _
  simp only [Function.comp, bmBucket, List.filter_cons]
  rw [List.filter_filter, List.filter_filter]
  simp only [Bool.and_comm]
  split <;> rfl

theorem wsum_split (w : EV α → Bool) (p : Nat × Lit (EV α) → Bool) (ts : WTerms α) : wsum w ts = wsum w (ts.filter p) + wsum w (ts.filter (fun t => !p t)) := by
  induction ts with
  | nil => rfl
  | cons t ts ih => simp only [List.filter_cons, wsum]; cases p t <;> simp [wsum] <;> omega
theorem wsum_zero {w : EV α → Bool} {ts : WTerms α} (h : ∀ t ∈ ts, t.2.eval w = false) : wsum w ts = 0 := by
  induction ts with
  | nil => rfl
  | cons t ts ih => simp only [wsum, h t (by simp)]; rw [ih fun s hs => h s (by simp [hs])]; simp
theorem wsum_ge {w : EV α → Bool} {ts : WTerms α} {t : Nat × Lit (EV α)} (ht : t ∈ ts) (h : t.2.eval w = true) : t.1 ≤ wsum w ts := by
  induction ts with
  | nil => simp at ht
  | cons s ts ih =>
    simp only [wsum]
    rcases List.mem_cons.1 ht with rfl | ht
    · rw [if_pos h]; omega
    · have := ih ht; omega

/-- the constraint holds, or the literal that switches it off is true -/
theorem binaryMerge_exact {cfg : BmCfg} {gac : Option (Lit (EV α))} {p leq k : Nat} {ts : WTerms α} (hw : ∀ t ∈ ts, t.1 < 2 ^ (p + 1)) (ho : ∀ t ∈ ts, Old k t.2) (hg : ∀ g, gac = some g → Old k g) :
    Exact k (binaryMerge [] cfg gac p leq k ts).2 (ts.map (·.2) ++ gac.toList) (binaryMerge [] cfg gac p leq k ts).1 (fun v => gacT v gac ∨ wsum v ts ≤ leq) := by
  unfold binaryMerge
  dsimp only
  generalize hm : (leq + 1 + 2 ^ p - 1) / 2 ^ p = m
  have hp0 : 0 < 2 ^ p := Nat.pow_pos (by omega)
  have hN1 : leq + 1 ≤ m * 2 ^ p := by
    have := Nat.lt_div_mul_add (a := leq + 1 + 2 ^ p - 1) hp0
    rw [hm] at this; omega
  have hN2 : m * 2 ^ p < leq + 1 + 2 ^ p := by
    have := Nat.div_mul_le_self (leq + 1 + 2 ^ p - 1) (2 ^ p)
    rw [hm] at this; omega
  have hm0 : 0 < m := by
    rcases Nat.eq_zero_or_pos m with h | h
    · subst h; omega
    · exact h
  generalize hNN : m * 2 ^ p = N at *
  rw [bmBuckets]
  generalize hsm : ts.filter (fun s => !(gac.isSome && decide (leq + 1 ≤ s.1))) = small
  have hks : (List.range (p + 1)).map (fun i => (N + 2 ^ i - 1) / 2 ^ i) = (List.range (p + 1)).map fun i => m * 2 ^ (p - i) := by
    apply List.map_congr_left
    intro i hi
    rw [List.mem_range] at hi
    rw [← hNN, ks_eq (by omega)]
  rw [hks]
  have hsmall : ∀ t ∈ small, t ∈ ts := fun t ht => by rw [← hsm] at ht; exact List.mem_of_mem_filter ht
  have hh := halving_ks m hm0 p (bits (p + 1) ((N - (leq + 1), (al k : Lit (EV α))) :: small))
  have hbl : ((List.range (p + 1)).map fun i => m * 2 ^ (p - i)).length = (bits (p + 1) ((N - (leq + 1), (al k : Lit (EV α))) :: small)).length := by simp [bits]
  have hbv : ∀ w : EV α → Bool, bval w (bits (p + 1) ((N - (leq + 1), al k) :: small)) = (if w (.aux k) then N - (leq + 1) else 0) + wsum w small := fun w => by
    rw [bits_val w (p + 1) _ (by
      intro t ht
      rcases List.mem_cons.1 ht with rfl | ht
      · rw [Nat.pow_succ]; dsimp only; omega
      · exact hw t (hsmall t ht)), wsum, al_eval]
  have hbo : ∀ b ∈ bits (p + 1) ((N - (leq + 1), (al k : Lit (EV α))) :: small), ∀ l ∈ b, l = al k ∨ l ∈ ts.map (·.2) := by
    intro b hb l hl
    simp only [bits, List.mem_map, List.mem_range] at hb
    obtain ⟨i, _, rfl⟩ := hb
    obtain ⟨t, ht, rfl⟩ := List.mem_map.1 hl
    rcases List.mem_cons.1 (List.mem_of_mem_filter ht) with rfl | ht
    · exact .inl rfl
    · exact .inr (List.mem_map.2 ⟨t, hsmall t ht, rfl⟩)
  have hlo : ∀ l ∈ ts.map (·.2), Old k l := by
    intro l hl; obtain ⟨t, ht, rfl⟩ := List.mem_map.1 hl; exact ho t ht
  obtain ⟨b0, bs, hbs⟩ : ∃ b0 bs, bits (p + 1) ((N - (leq + 1), (al k : Lit (EV α))) :: small) = b0 :: bs := by
    rw [bits_succ]; exact ⟨_, _, rfl⟩
  have hz : ((List.range (p + 1)).map fun i => m * 2 ^ (p - i)).zip (bits (p + 1) ((N - (leq + 1), (al k : Lit (EV α))) :: small)) =
      (N, b0) :: ((List.range p).map fun i => m * 2 ^ (p - (i + 1))).zip bs := by
    rw [hbs, List.range_succ_eq_map, List.map_cons, List.map_map, List.zip_cons_cons, Nat.sub_zero, hNN]; rfl
  have hsnd : ((N, b0) :: ((List.range p).map fun i => m * 2 ^ (p - (i + 1))).zip bs).map (·.2) = bits (p + 1) ((N - (leq + 1), (al k : Lit (EV α))) :: small) := by
    rw [← hz]; exact List.map_snd_zip (by omega)
  have hpo : ∀ q ∈ (N, b0) :: ((List.range p).map fun i => m * 2 ^ (p - (i + 1))).zip bs, ∀ l ∈ q.2, Old (k + 1) l := by
    intro q hq l hl
    have hq' : q.2 ∈ bits (p + 1) ((N - (leq + 1), (al k : Lit (EV α))) :: small) := by rw [← hsnd]; exact List.mem_map.2 ⟨q, hq, rfl⟩
    rcases hbo _ hq' l hl with rfl | h
    · exact old_al (by omega)
    · exact (hlo l h).mono (by omega)
  rw [hz] at hh ⊢
  have T := bmLoop_ok (cfg := cfg) (gac := gac) _ (k + 1) [] N b0 hh hpo (by simp) (fun g e => (hg g e).mono (by omega)) (by simp)
  rw [hsnd] at T
  generalize bmLoop [] cfg gac (k + 1) [] ((N, b0) :: ((List.range p).map fun i => m * 2 ^ (p - (i + 1))).zip bs) = q at *
  have hle := T.le
  -- the clauses for the large coefficients
  generalize hbig : (((List.range (p + 1)).map fun i => bmBucket gac (leq + 1) (N - (leq + 1)) i (al k) ts).flatMap (·.2)) = big
  have hbm : ∀ c, c ∈ big ↔ ∃ i < p + 1, ∃ t ∈ ts, t.1.testBit i = true ∧ gac.isSome = true ∧ leq + 1 ≤ t.1 ∧ c = gcl gac [t.2.neg] := by
    intro c
    rw [← hbig]
    simp only [List.mem_flatMap, List.mem_map, List.mem_range, bmBucket, List.mem_filter, Bool.and_eq_true, decide_eq_true_iff]
    constructor
    · rintro ⟨_, ⟨i, hi, rfl⟩, h⟩
      simp only [List.mem_map, List.mem_filter, Bool.and_eq_true, decide_eq_true_iff] at h
      obtain ⟨t, ⟨⟨h1, h2⟩, h3, h4⟩, rfl⟩ := h
      exact ⟨i, hi, t, h1, h2, h3, h4, rfl⟩
    · rintro ⟨i, hi, t, h1, h2, h3, h4, rfl⟩
      refine ⟨_, ⟨i, hi, rfl⟩, ?_⟩
      simp only [List.mem_map, List.mem_filter, Bool.and_eq_true, decide_eq_true_iff]
      exact ⟨t, ⟨⟨h1, h2⟩, h3, h4⟩, rfl⟩
  have hbs1 : ∀ w : EV α → Bool, Sat w big → ¬gacT w gac → wsum w ts = wsum w small := by
    intro w hs hgw
    rw [wsum_split w (fun s => gac.isSome && decide (leq + 1 ≤ s.1)) ts, hsm, wsum_zero, Nat.zero_add]
    intro t ht
    rw [List.mem_filter] at ht
    simp only [Bool.and_eq_true, decide_eq_true_iff] at ht
    obtain ⟨h1, h2, h3⟩ := ht
    obtain ⟨i, hi⟩ := Nat.exists_testBit_of_ne_zero (show t.1 ≠ 0 by omega)
    have hi' : i < p + 1 := by
      by_contra hc
      rw [Nat.testBit_lt_two_pow (Nat.lt_of_lt_of_le (hw t h1) (Nat.pow_le_pow_right (by omega) (by omega)))] at hi
      simp at hi
    obtain ⟨l, hl, e⟩ := hs _ ((hbm _).2 ⟨i, hi', t, h1, hi, h2, h3, rfl⟩)
    simp only [gcl, List.mem_append, Option.mem_toList, List.mem_cons, List.not_mem_nil, or_false] at hl
    rcases hl with h | rfl
    · exact absurd ⟨l, h, e⟩ hgw
    · rw [Lit.eval_neg] at e; simpa using e
  have hbs2 : ∀ w : EV α → Bool, (gacT w gac ∨ wsum w ts ≤ leq) → Sat w big := by
    intro w h c hc
    obtain ⟨i, _, t, h1, _, h2, h3, rfl⟩ := (hbm c).1 hc
    rcases h with ⟨g, e, h⟩ | h
    · exact ⟨g, by simp [gcl, e], h⟩
    · refine ⟨t.2.neg, by simp [gcl], ?_⟩
      rw [Lit.eval_neg]
      by_contra hc
      have := wsum_ge h1 (by simpa using hc)
      omega
  have hbv' : ∀ c ∈ big, ∀ l ∈ c, ∃ m ∈ ts.map (·.2) ++ gac.toList, m.var = l.var := by
    intro c hc l hl
    obtain ⟨i, _, t, h1, _, h2, h3, rfl⟩ := (hbm c).1 hc
    simp only [gcl, List.mem_append, List.mem_cons, List.not_mem_nil, or_false] at hl
    rcases hl with h | rfl
    · exact ⟨l, List.mem_append_right _ h, rfl⟩
    · exact ⟨t.2, List.mem_append_left _ (List.mem_map.2 ⟨t, h1, rfl⟩), rfl⟩
  have hallOld : ∀ l ∈ ts.map (·.2) ++ gac.toList, Old k l := fun l hl => (List.mem_append.1 hl).elim (hlo l) (fun h => hg l (by simpa using h))
  refine ⟨by omega, ?_, ?_, ?_⟩
  · intro c hc l hl
    simp only [List.cons_append, List.mem_cons, List.mem_append] at hc
    rcases hc with rfl | hc | hc
    · simp at hl; subst hl; exact .inr (new_al.2 ⟨by omega, by omega⟩)
    · exact .inl (hbv' c hc l hl)
    · rcases T.vars c hc l hl with ⟨m, hm, e⟩ | h
      · simp only [List.append_nil, List.mem_append, List.mem_flatten] at hm
        rcases hm with ⟨b, hb, h⟩ | h
        · rcases hbo b hb m h with rfl | h
          · exact .inr (by rw [← e]; exact new_al.2 ⟨by omega, by omega⟩)
          · exact .inl ⟨m, List.mem_append_left _ h, e⟩
        · exact .inl ⟨m, List.mem_append_right _ h, e⟩
      · exact .inr (h.mono (by omega) (Nat.le_refl _))
  · intro w hs
    simp only [List.cons_append, sat_cons, sat_append, List.mem_cons, List.not_mem_nil, or_false, exists_eq_left, al_eval] at hs
    obtain ⟨ht, hb, hq⟩ := hs
    by_cases hgw : gacT w gac
    · exact .inl hgw
    · right
      have := T.sound w 0 hq hgw (fun _ _ _ h => absurd h (by omega)) (by simp) (by omega)
      rw [hbv, if_pos ht] at this
      rw [hbs1 w hb hgw]; omega
  · intro v hv
    let v1 := setNew v k (k + 1) (fun _ => true)
    have hk : v1 (.aux k) = true := by
      have := setNew_on (v := v) (k := k) (k' := k + 1) (g := fun _ => true) (i := 0) (by omega)
      simpa using this
    have o1 : ∀ x, ¬New k (k + 1) x → v1 x = v x := fun x hx => setNew_off hx
    have hg1 : gacT v1 gac ↔ gacT v gac := gacT_congr fun g e => o1 _ ((hg g e).not_new (Nat.le_refl _))
    have hw1 : ∀ us : WTerms α, (∀ t ∈ us, t ∈ ts) → wsum v1 us = wsum v us := fun us hus => wsum_congr fun t ht => o1 _ ((ho t (hus t ht)).not_new (Nat.le_refl _))
    obtain ⟨w, o, s⟩ := T.complete v1 0 (fun i l h => by simp at h) (by simp) (by
      rw [hg1, hbv, if_pos hk, hw1 small hsmall]
      rcases hv with h | h
      · exact .inl h
      · right
        have := wsum_split v (fun s => gac.isSome && decide (leq + 1 ≤ s.1)) ts
        rw [hsm] at this
        omega)
    have hoff : ∀ x, ¬New k q.2 x → w x = v x := fun x hx => by
      rw [o x (fun h => hx (h.mono (by omega) (Nat.le_refl _))), o1 x (fun h => hx (h.mono (Nat.le_refl _) hle))]
    refine ⟨w, hoff, ?_⟩
    simp only [List.cons_append, sat_cons, sat_append, List.mem_cons, List.not_mem_nil, or_false, exists_eq_left, al_eval]
    refine ⟨?_, hbs2 w ?_, s⟩
    · rw [o (.aux k) ((old_al (Nat.lt_succ_self k)).not_new (Nat.le_refl _) : ¬New (k + 1) q.2 (al k).var)]; exact hk
    · rw [gacT_congr (w := v) fun g e => hoff _ ((hg g e).not_new (Nat.le_refl _)), wsum_congr (w := v) fun t ht => hoff _ ((ho t ht).not_new (Nat.le_refl _))]
      exact hv

/-! ### the loop over the literals -/

theorem Exact.seq {k k1 k2 : Nat} {ls ls1 ls2 : List (Lit (EV α))} {c1 c2 : List (Clause α)} {C1 C2 C : (EV α → Bool) → Prop} (h1 : Exact k k1 ls1 c1 C1) (h2 : Exact k1 k2 ls2 c2 C2)
    (ho : ∀ l ∈ ls, Old k l) (s1 : ∀ l ∈ ls1, ∃ m ∈ ls, m.var = l.var) (s2 : ∀ l ∈ ls2, ∃ m ∈ ls, m.var = l.var)
    (hC : ∀ v, C v ↔ C1 v ∧ C2 v) (hinv : ∀ v w : EV α → Bool, (∀ l ∈ ls, v l.var = w l.var) → C2 v → C2 w) : Exact k k2 ls (c1 ++ c2) C where
  le := Nat.le_trans h1.le h2.le
  vars := by
    intro c hc l hl
    rcases List.mem_append.1 hc with hc | hc
    · rcases h1.vars c hc l hl with ⟨m, hm, e⟩ | h
      · obtain ⟨m', hm', e'⟩ := s1 m hm; exact .inl ⟨m', hm', e'.trans e⟩
      · exact .inr (h.mono (Nat.le_refl _) h2.le)
    · rcases h2.vars c hc l hl with ⟨m, hm, e⟩ | h
      · obtain ⟨m', hm', e'⟩ := s2 m hm; exact .inl ⟨m', hm', e'.trans e⟩
      · exact .inr (h.mono h1.le (Nat.le_refl _))
  sound := fun w hw => (hC w).2 ⟨h1.sound w (sat_append.1 hw).1, h2.sound w (sat_append.1 hw).2⟩
  complete := by
    intro v hv
    obtain ⟨hv1, hv2⟩ := (hC v).1 hv
    obtain ⟨w1, o1, sat1⟩ := h1.complete v hv1
    obtain ⟨w2, o2, sat2⟩ := h2.complete w1 (hinv v w1 (fun l hl => (o1 _ ((ho l hl).not_new (Nat.le_refl _))).symm) hv2)
    have h1le := h1.le
    refine ⟨w2, fun x hx => ?_, sat_append.2 ⟨(sat_congr fun c hc l hl => ?_).2 sat1, sat2⟩⟩
    · rw [o2 x (fun h => hx (h.mono h1.le (Nat.le_refl _))), o1 x (fun h => hx (h.mono (Nat.le_refl _) h2.le))]
    · apply o2
      rcases h1.vars c hc l hl with ⟨m, hm, e⟩ | ⟨n, e, _, h⟩
      · obtain ⟨m', hm', e'⟩ := s1 m hm
        rw [← e, ← e']; exact (ho m' hm').not_new h1le
      · rintro ⟨n', e', h', _⟩; rw [e] at e'; cases e'; omega

theorem wsum_perm {w : EV α → Bool} {a b : WTerms α} (h : a.Perm b) : wsum w a = wsum w b := by
  induction h with
  | nil => rfl
  | cons x _ ih => simp only [wsum, ih]
  | swap x y l => simp only [wsum]; omega
  | trans _ _ ih1 ih2 => exact ih1.trans ih2

theorem bmRemove_perm {ts : WTerms α} {i : Nat} {x : Nat × Lit (EV α)} (h : ts[i]? = some x) : (x :: bmRemove ts i).Perm ts := by
  obtain ⟨hi, rfl⟩ := List.getElem?_eq_some_iff.1 h
  rcases List.eq_nil_or_concat ts with rfl | ⟨a, y, rfl⟩
  · simp at hi
  simp only [List.concat_eq_append] at hi ⊢
  simp only [bmRemove, List.getLast?_append, List.getLast?_singleton, Option.some_or]
  by_cases hia : i < a.length
  · rw [List.set_append_left _ _ hia, List.dropLast_concat, List.getElem_append_left hia]
    have h1 : (a.set i y).Perm (y :: a.eraseIdx i) := by
      rw [List.set_eq_take_append_cons_drop, if_pos hia, List.eraseIdx_eq_take_drop_succ]
      exact List.perm_middle
    have h2 : (a[i] :: a.eraseIdx i).Perm a := by
      rw [List.eraseIdx_eq_take_drop_succ]
      refine List.perm_middle.symm.trans ?_
      rw [List.getElem_cons_drop, List.take_append_drop]
    calc (a[i] :: a.set i y).Perm (a[i] :: y :: a.eraseIdx i) := h1.cons _
      _ |>.Perm (y :: a[i] :: a.eraseIdx i) := List.Perm.swap _ _ _
      _ |>.Perm (y :: a) := h2.cons _
      _ |>.Perm (a ++ [y]) := (List.perm_append_singleton y a).symm
  · have : i = a.length := by simp at hi; omega
    subst this
    rw [List.set_append_right _ _ (Nat.le_refl _)]
    simp only [Nat.sub_self, List.set_cons_zero, List.dropLast_concat, List.getElem_concat_length]
    exact (List.perm_append_singleton y a).symm

theorem le_foldl_max : ∀ (l : List Nat) (a : Nat), a ≤ l.foldl max a ∧ ∀ x ∈ l, x ≤ l.foldl max a
  | [], a => by simp
  | y :: l, a => by
    obtain ⟨h1, h2⟩ := le_foldl_max l (max a y)
    rw [List.foldl_cons]
    refine ⟨by omega, fun x hx => ?_⟩
    rcases List.mem_cons.1 hx with rfl | hx
    · omega
    · exact h2 x hx
theorem le_maxWeight {ts : WTerms α} {t : Nat × Lit (EV α)} (h : t ∈ ts) : t.1 ≤ maxWeight ts := (le_foldl_max _ _).2 _ (List.mem_map.2 ⟨t, h, rfl⟩)
theorem lt_log {a b : Nat} (h : a ≤ b) : a < 2 ^ (Nat.log 2 b + 1) := Nat.lt_of_le_of_lt h (Nat.lt_pow_succ_log_self (by omega) b)

theorem units_gac {k rhs : Nat} {x : Nat × Lit (EV α)} {ts : WTerms α} (hw : ∀ t ∈ ts, 0 < t.1) (h0 : rhs = 0) :
    Exact k k (x.2 :: ts.map (·.2)) (ts.map fun s => [x.2.neg, s.2.neg]) (fun v => x.2.eval v = false ∨ wsum v ts ≤ rhs) := by
  refine .direct ?_ fun v => ?_
  · intro c hc l hl
    obtain ⟨s, hs, rfl⟩ := List.mem_map.1 hc
    simp only [List.mem_cons, List.not_mem_nil, or_false] at hl
    rcases hl with rfl | rfl
    · exact ⟨x.2, by simp, rfl⟩
    · exact ⟨s.2, List.mem_cons_of_mem _ (List.mem_map.2 ⟨s, hs, rfl⟩), rfl⟩
  · subst h0
    rw [sat_map]
    constructor
    · intro h
      by_cases hx : x.2.eval v = false
      · exact .inl hx
      · right
        refine Nat.le_of_eq (wsum_zero ?_)
        intro t ht
        obtain ⟨l, hl, e⟩ := h t ht
        simp only [List.mem_cons, List.not_mem_nil, or_false] at hl
        rcases hl with rfl | rfl
        · rw [Lit.eval_neg] at e; simp [hx] at e
        · rw [Lit.eval_neg] at e; simpa using e
    · rintro (h | h) s hs
      · exact ⟨x.2.neg, by simp, by rw [Lit.eval_neg, h]; rfl⟩
      · refine ⟨s.2.neg, by simp, ?_⟩
        rw [Lit.eval_neg]
        by_contra hc
        have := wsum_ge hs (by simpa using hc)
        have := hw s hs
        omega

theorem bmGac_exact {cfg : BmCfg} {mw rhs k : Nat} {x : Nat × Lit (EV α)} {ts : WTerms α} (hw : ∀ t ∈ ts, 0 < t.1 ∧ t.1 ≤ mw) (ho : ∀ t ∈ x :: ts, Old k t.2) :
    Exact k (bmGac [] cfg mw rhs k x ts).2 (x.2 :: ts.map (·.2)) (bmGac [] cfg mw rhs k x ts).1 (fun v => x.2.eval v = false ∨ wsum v ts ≤ rhs - x.1) := by
  have hg : ∀ v : EV α → Bool, gacT v (some x.2.neg) ↔ x.2.eval v = false := fun v => by
    simp only [gacT, Option.some.injEq, exists_eq_left', Lit.eval_neg]; simp
  have hB : ∀ p, (∀ t ∈ ts, t.1 < 2 ^ (p + 1)) → Exact k (binaryMerge [] cfg (some x.2.neg) p (rhs - x.1) k ts).2 (x.2 :: ts.map (·.2)) (binaryMerge [] cfg (some x.2.neg) p (rhs - x.1) k ts).1
      (fun v => x.2.eval v = false ∨ wsum v ts ≤ rhs - x.1) := fun p hp =>
    (binaryMerge_exact hp (fun t ht => ho t (by simp [ht])) (by rintro g e; cases e; exact (ho x (by simp)).neg)).congr (by
      intro l hl
      simp only [List.mem_append, Option.toList_some, List.mem_cons, List.not_mem_nil, or_false] at hl
      rcases hl with h | rfl
      · exact ⟨l, by simp [h], rfl⟩
      · exact ⟨x.2, by simp, rfl⟩) (fun v => by rw [hg])
  unfold bmGac
  dsimp only
  split
  · split
    · exact units_gac (fun t ht => (hw t ht).1) ‹_›
    · exact hB _ fun t ht => lt_log (le_maxWeight ht)
  · split
    · rename_i h0
      have hol : ∀ l ∈ x.2 :: ts.map (·.2), Old k l := by
        intro l hl
        rcases List.mem_cons.1 hl with rfl | hl
        · exact ho x (by simp)
        · obtain ⟨t, ht, rfl⟩ := List.mem_map.1 hl; exact ho t (by simp [ht])
      exact Exact.seq (units_gac (rhs := rhs - x.1) (fun t ht => (hw t ht).1) h0) (hB _ fun t ht => lt_log (hw t ht).2) hol (fun l hl => ⟨l, hl, rfl⟩) (fun l hl => ⟨l, hl, rfl⟩)
        (fun v => by simp) (fun v w h => by
          rintro (h' | h')
          · exact .inl (by rw [← eval_congr_var (h _ (by simp))]; exact h')
          · right
            rw [← wsum_congr (v := v) (fun t ht => h t.2 (List.mem_cons_of_mem _ (List.mem_map.2 ⟨t, ht, rfl⟩)))]; exact h')
    · simpa using hB _ fun t ht => lt_log (hw t ht).2

theorem bmGacs_exact {cfg : BmCfg} {single : Nat → Bool} {mw rhs : Nat} {ts : WTerms α} (hw : ∀ t ∈ ts, 0 < t.1 ∧ t.1 ≤ mw ∧ t.1 ≤ rhs) : ∀ (is : List Nat) (k : Nat), (∀ i ∈ is, i < ts.length) → (∀ t ∈ ts, Old k t.2) →
    Exact k (bmGacs [] cfg single mw rhs ts k is).2 (ts.map (·.2)) (bmGacs [] cfg single mw rhs ts k is).1
      (fun v => ∀ i ∈ is, ∀ x, ts[i]? = some x → (cfg.noSingle && single x.1) = false → x.2.eval v = false ∨ wsum v ts ≤ rhs)
  | [], k, _, _ => .direct (by simp [bmGacs]) (by simp [bmGacs])
  | i :: is, k, hi, ho => by
    have hx : ts[i]? = some (ts[i]'(hi i (by simp))) := List.getElem?_eq_getElem _
    generalize (ts[i]'(hi i (by simp))) = x at hx
    rw [bmGacs, hx]
    dsimp only
    by_cases hs : (cfg.noSingle && single x.1) = true
    · rw [if_pos hs]
      refine (bmGacs_exact hw is k (fun j hj => hi j (by simp [hj])) ho).congr (fun l hl => ⟨l, hl, rfl⟩) fun v => ?_
      constructor
      · intro h j hj y hy hsy
        rcases List.mem_cons.1 hj with rfl | hj
        · rw [hx] at hy; cases hy; rw [hs] at hsy; simp at hsy
        · exact h j hj y hy hsy
      · exact fun h j hj => h j (by simp [hj])
    rw [if_neg hs]
    have hp := bmRemove_perm hx
    have hxm : x ∈ ts := List.mem_of_getElem? hx
    have hsub : ∀ t ∈ bmRemove ts i, t ∈ ts := fun t ht => hp.subset (by simp [ht])
    have E1 := bmGac_exact (cfg := cfg) (mw := mw) (rhs := rhs) (k := k) (x := x) (ts := bmRemove ts i) (fun t ht => ⟨(hw t (hsub t ht)).1, (hw t (hsub t ht)).2.1⟩) (fun t ht => ho t (hp.subset ht))
    have E2 := bmGacs_exact (cfg := cfg) (single := single) hw is (bmGac [] cfg mw rhs k x (bmRemove ts i)).2 (fun j hj => hi j (by simp [hj])) (fun t ht => (ho t ht).mono E1.le)
    refine Exact.seq E1 E2 (by intro l hl; obtain ⟨t, ht, rfl⟩ := List.mem_map.1 hl; exact ho t ht) ?_ (fun l hl => ⟨l, hl, rfl⟩) ?_ ?_
    · intro l hl
      have : l ∈ (x :: bmRemove ts i).map (·.2) := by simpa using hl
      obtain ⟨t, ht, rfl⟩ := List.mem_map.1 this
      exact ⟨t.2, List.mem_map.2 ⟨t, hp.subset ht, rfl⟩, rfl⟩
    · intro v
      have hsum : wsum v ts = (if x.2.eval v then x.1 else 0) + wsum v (bmRemove ts i) := by rw [← wsum_perm hp, wsum]
      have hle := (hw x hxm).2.2
      have hiff : (x.2.eval v = false ∨ wsum v ts ≤ rhs) ↔ (x.2.eval v = false ∨ wsum v (bmRemove ts i) ≤ rhs - x.1) := by
        cases hv : x.2.eval v
        · simp
        · rw [hsum, hv]; simp; omega
      constructor
      · intro h
        exact ⟨hiff.1 (h i (by simp) x hx (by simpa using hs)), fun j hj => h j (by simp [hj])⟩
      · rintro ⟨h1, h2⟩ j hj y hy hsy
        rcases List.mem_cons.1 hj with rfl | hj
        · rw [hx] at hy; cases hy; exact hiff.2 h1
        · exact h2 j hj y hy hsy
    · intro v w h hv j hj y hy hsy
      have hym : y ∈ ts := List.mem_of_getElem? hy
      have hc : wsum w ts = wsum v ts := wsum_congr fun t ht => (h t.2 (List.mem_map.2 ⟨t, ht, rfl⟩)).symm
      rw [hc, ← eval_congr_var (h y.2 (List.mem_map.2 ⟨y, hym, rfl⟩))]
      exact hv j hj y hy hsy

theorem encodeBM_exact {cfg : BmCfg} {single : Nat → Bool} {k rhs : Nat} {ts : WTerms α} (hw : ∀ t ∈ ts, 0 < t.1 ∧ t.1 ≤ rhs) (ho : ∀ t ∈ ts, Old k t.2) :
    Exact k (encodeBM [] cfg single k rhs ts).2 (ts.map (·.2)) (encodeBM [] cfg single k rhs ts).1 (fun v => wsum v ts ≤ rhs) := by
  have hol : ∀ l ∈ ts.map (·.2), Old k l := by intro l hl; obtain ⟨t, ht, rfl⟩ := List.mem_map.1 hl; exact ho t ht
  have hB : ∀ (k' : Nat) (us : WTerms α), k ≤ k' → (∀ t ∈ us, t ∈ ts) → Exact k' (binaryMerge [] cfg none (Nat.log 2 (maxWeight ts)) rhs k' us).2 (us.map (·.2))
      (binaryMerge [] cfg none (Nat.log 2 (maxWeight ts)) rhs k' us).1 (fun v => wsum v us ≤ rhs) := fun k' us hk hus =>
    (binaryMerge_exact (fun t ht => lt_log (le_maxWeight (hus t ht))) (fun t ht => (ho t (hus t ht)).mono hk) (by simp)).congr (fun l hl => ⟨l, by simpa using hl, rfl⟩) (fun v => by simp [gacT])
  unfold encodeBM
  dsimp only
  split
  · have E := bmGacs_exact (cfg := cfg) (single := single) (mw := maxWeight ts) (rhs := rhs) (ts := ts) (fun t ht => ⟨(hw t ht).1, le_maxWeight ht, (hw t ht).2⟩) (List.range ts.length) k (fun i hi => List.mem_range.1 hi) ho
    have hE : ∀ v : EV α → Bool, (∀ i ∈ List.range ts.length, ∀ x, ts[i]? = some x → (cfg.noSingle && single x.1) = false → x.2.eval v = false ∨ wsum v ts ≤ rhs) ↔
        (∀ x ∈ ts, (cfg.noSingle && single x.1) = false → x.2.eval v = false ∨ wsum v ts ≤ rhs) := fun v => by
      constructor
      · intro h x hx
        obtain ⟨i, hi, rfl⟩ := List.getElem_of_mem hx
        exact h i (List.mem_range.2 hi) _ (List.getElem?_eq_getElem hi)
      · exact fun h i _ x hx => h x (List.mem_of_getElem? hx)
    split
    · generalize hts' : bmRest cfg single ts = ts'
      have hsub : ∀ t ∈ ts', t ∈ ts := by
        rw [← hts', bmRest]
        split
        · split
          · exact fun _ h => h
          · exact fun t h => List.dropLast_subset _ h
        · exact fun _ h => h
      have hle : ∀ v : EV α → Bool, wsum v ts' ≤ wsum v ts := by
        intro v
        rw [← hts', bmRest]
        split
        · split
          · exact Nat.le_refl _
          · rename_i t ht _
            obtain ⟨a, rfl⟩ := List.getLast?_eq_some_iff.1 ht
            rw [List.dropLast_concat, wsum_append]; omega
        · exact Nat.le_refl _
      refine Exact.seq E (hB _ ts' E.le hsub) hol (fun l hl => ⟨l, hl, rfl⟩) (fun l hl => ?_) (fun v => ?_) (fun v w h hv => ?_)
      · obtain ⟨t, ht, rfl⟩ := List.mem_map.1 hl
        exact ⟨t.2, List.mem_map.2 ⟨t, hsub t ht, rfl⟩, rfl⟩
      · rw [hE v]
        constructor
        · intro h; exact ⟨fun x _ _ => .inr h, Nat.le_trans (hle v) h⟩
        · rintro ⟨h1, h2⟩
          rw [← hts', bmRest] at h2
          cases hl : ts.getLast? with
          | none => rw [hl] at h2; exact h2
          | some t =>
            rw [hl] at h2
            dsimp only at h2
            split at h2
            · exact h2
            · rename_i hsk
              obtain ⟨a, e⟩ := List.getLast?_eq_some_iff.1 hl
              rcases h1 t (by rw [e]; simp) (Bool.eq_false_iff.2 hsk) with h | h
              · rw [e, List.dropLast_concat] at h2
                rw [e, wsum_append, wsum, h]; simpa [wsum] using h2
              · exact h
      · rw [← wsum_congr (v := v) fun t ht => h t.2 (List.mem_map.2 ⟨t, hsub t ht, rfl⟩)]; exact hv
    · rename_i hns
      refine E.congr (fun l hl => ⟨l, hl, rfl⟩) fun v => ?_
      rw [hE v]
      constructor
      · intro h
        by_contra hc
        have : wsum v ts = 0 := wsum_zero fun t ht => by
          rcases h t ht (by
            by_contra hs
            apply hns
            simp only [Bool.and_eq_true, List.any_eq_true]
            have hs' : cfg.noSingle = true ∧ single t.1 = true := by simpa using hs
            exact ⟨hs'.1, t, ht, hs'⟩) with h | h
          · exact h
          · exact absurd h hc
        omega
      · exact fun h x _ _ => .inr h
  · exact hB k ts (Nat.le_refl _) (fun _ h => h)

end Verif.PB
