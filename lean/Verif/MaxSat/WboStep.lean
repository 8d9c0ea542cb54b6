import Verif.MaxSat.WboInv

/-! # WBO: relaxing a conflict -/

namespace Verif.MaxAlg

open Verif.MaxSat (litVal clauseVal costC)

/-! ## one soft clause of the conflict -/

/-- what the relaxation variables chosen so far save -/
def saved (u : Nat → Bool) (mc : Nat) (PL : List (WSft × Nat)) : Nat := (PL.map fun q => if litVal u q.2 && fals u q.1 then mc else 0).sum

/-- the soft clauses `soft0` are being relaxed; `PL` are the relaxed ones with their new literals, `rest` the literals of the conflict still to come -/
structure FInv (P : Prob) (S : Prop) (mc n0 : Nat) (soft0 : List WSft) (K0 : Nat → Knd) (core : List Nat) (n : Nat) (soft : List WSft) (PL : List (WSft × Nat)) (K : Nat → Knd) (rest : List Nat) : Prop
    extends SOk P n K soft where
  nn : n0 ≤ n
  kext : ∀ x < n0, K x = K0 x
  lits : ∀ q ∈ PL, q.2 % 2 = 0 ∧ n0 ≤ q.2 / 2 ∧ q.2 / 2 < n ∧ K (q.2 / 2) = .rel
  srt : (PL.map (·.2)).Pairwise (· < ·)
  src : ∀ q ∈ PL, q.1 ∈ soft0
  rem : ∀ u, remW u soft + saved u mc PL = remW u soft0
  left : ∀ y ∈ soft0, y.a ∈ rest → y ∈ soft
  done : ∀ y ∈ soft0, y.a ∈ core → y.a ∈ rest ∨ ∃ p, (y, p) ∈ PL
  uniq : S → UniqV soft
  succ : ∀ y ∈ soft0, y.inc = false → ∃ z ∈ soft, z.inc = false ∧ ∀ l ∈ y.vars, l ∈ z.vars

/-- kinds after a step: the relaxation variable `p`, otherwise assumption literals -/
def stepK (K : Nat → Knd) (n p : Nat) : Nat → Knd := fun x => if x < n then K x else if x = p then .rel else .asm

/-- a soft clause `y` becomes `y'` and `E` with the relaxation variable `p` -/
structure Step1 (S : Prop) (mc n p n' : Nat) (y y' : WSft) (E : List WSft) : Prop where
  np : n ≤ p
  nn : p < n'
  cl : ∀ z ∈ y' :: E, z.cl = y.cl
  a : y'.a = y.a
  ea : ∀ z ∈ E, z.a % 2 = 0 ∧ n ≤ z.a / 2 ∧ z.a / 2 < n' ∧ z.a / 2 ≠ p
  ean : (E.map (·.a)).Nodup
  w : ∀ z ∈ y' :: E, 0 < z.w
  vars : ∀ z ∈ y' :: E, ∀ l ∈ z.vars, l ∈ y.vars ∨ l = 2 * p
  rv : ∀ u, rv u y' + remW u E + (if litVal u (2 * p) && fals u y then mc else 0) = MaxAlg.rv u y
  cost : ∀ u, costC u (((y' :: E).filter fun y => !y.inc).map fun y => (y.cl, y.w)) = costC u (([y].filter fun y => !y.inc).map fun y => (y.cl, y.w))
  uniq : S → UniqV (y' :: E)
  act : ∀ z ∈ y' :: E, z.inc = false → y.inc = false
  succ : y.inc = false → ∃ z ∈ y' :: E, z.inc = false ∧ ∀ l ∈ y.vars, l ∈ z.vars

theorem remW_append (u : Nat → Bool) (a b : List WSft) : remW u (a ++ b) = remW u a + remW u b := by
  unfold remW; rw [List.map_append, List.sum_append]

theorem remW_cons (u : Nat → Bool) (y : WSft) (b : List WSft) : remW u (y :: b) = rv u y + remW u b := by
  unfold remW; rw [List.map_cons, List.sum_cons]

theorem FInv.step {P : Prob} {S : Prop} {mc n0 n p n' q : Nat} {soft0 soft : List WSft} {K0 K : Nat → Knd} {core rest : List Nat} {PL : List (WSft × Nat)}
    (h : FInv P S mc n0 soft0 K0 core n soft PL K (q :: rest)) (hq : q ∉ rest) {i : Nat} {y y' : WSft} {E : List WSft} (hy : soft[i]? = some y) (hy0 : y ∈ soft0) (hyq : y.a = q)
    (hs : Step1 S mc n p n' y y' E) :
    FInv P S mc n0 soft0 K0 core n' (soft.set i y' ++ E) (PL ++ [(y, 2 * p)]) (stepK K n p) rest := by
  obtain ⟨A, B, e, hset⟩ := split_at hy
  have hm : y ∈ soft := List.mem_of_getElem? hy
  have hnn := hs.nn
  have hnp := hs.np
  have kold : ∀ x < n, stepK K n p x = K x := fun x hx => by unfold stepK; rw [if_pos hx]
  have krel : stepK K n p p = .rel := by unfold stepK; rw [if_neg (by omega), if_pos rfl]
  have kasm : ∀ x, n ≤ x → x ≠ p → stepK K n p x = .asm := fun x hx hxp => by unfold stepK; rw [if_neg (by omega), if_neg (by omega)]
  have hmem : ∀ z ∈ soft.set i y' ++ E, z ∈ y' :: E ∨ (z ∈ soft ∧ z ≠ y) := by
    intro z hz
    rw [hset] at hz
    have hn := h.anodup
    rw [e, List.map_append, List.map_cons] at hn
    rcases List.mem_append.1 hz with hz | hz
    · rcases List.mem_append.1 hz with hz | hz
      · refine .inr ⟨by rw [e]; exact List.mem_append_left _ hz, fun ez => ?_⟩
        subst ez
        exact (List.nodup_append.1 hn).2.2 _ (List.mem_map.2 ⟨z, hz, rfl⟩) _ List.mem_cons_self rfl
      · rcases List.mem_cons.1 hz with rfl | hz
        · exact .inl List.mem_cons_self
        · refine .inr ⟨by rw [e]; exact List.mem_append_right _ (List.mem_cons_of_mem _ hz), fun ez => ?_⟩
          subst ez
          exact (List.nodup_cons.1 (List.nodup_append.1 hn).2.1).1 (List.mem_map.2 ⟨z, hz, rfl⟩)
    · exact .inl (List.mem_cons_of_mem _ hz)
  have hin : ∀ z ∈ soft, z ≠ y → z ∈ soft.set i y' ++ E := by
    intro z hz hne
    rw [hset]
    rw [e] at hz
    rcases List.mem_append.1 hz with hz | hz
    · exact List.mem_append_left _ (List.mem_append_left _ hz)
    · rcases List.mem_cons.1 hz with rfl | hz
      · exact absurd rfl hne
      · exact List.mem_append_left _ (List.mem_append_right _ (List.mem_cons_of_mem _ hz))
  have hnew : ∀ z ∈ y' :: E, z ∈ soft.set i y' ++ E := by
    intro z hz
    rw [hset]
    rcases List.mem_cons.1 hz with rfl | hz
    · exact List.mem_append_left _ (List.mem_append_right _ List.mem_cons_self)
    · exact List.mem_append_right _ hz
  have hv2n : ∀ z ∈ soft, 2 * p ∉ z.vars := fun z hz hl => by have := (h.vars z hz _ hl).2.1; omega
  refine { cl := fun z hz l hl => ?_, vars := fun z hz l hl => ?_, a := fun z hz => ?_, pos := fun z hz => ?_, anodup := ?_, cost := fun u => ?_, nn := (by have := h.nn; omega), kext := fun x hx => ?_, lits := fun r hr => ?_, srt := ?_, src := fun r hr => ?_, rem := fun u => ?_, left := fun z hz hzr => ?_, done := fun z hz hzc => ?_, uniq := fun hS => ?_, succ := fun z hz hzi => ?_ }
  · rcases hmem z hz with hz | hz
    · rw [hs.cl z hz] at hl; exact h.cl y hm l hl
    · exact h.cl z hz.1 l hl
  · have old : ∀ z ∈ soft, l ∈ z.vars → l % 2 = 0 ∧ l / 2 < n' ∧ stepK K n p (l / 2) = .rel := fun z hz hl => by
      obtain ⟨g1, g2, g3⟩ := h.vars z hz l hl
      exact ⟨g1, by omega, by rw [kold _ g2]; exact g3⟩
    rcases hmem z hz with hz | hz
    · rcases hs.vars z hz l hl with hl | rfl
      · exact old y hm hl
      · rw [show 2 * p / 2 = p by omega]
        exact ⟨by omega, hnn, krel⟩
    · exact old z hz.1 hl
  · have old : ∀ z ∈ soft, z.a % 2 = 0 ∧ z.a / 2 < n' ∧ stepK K n p (z.a / 2) = .asm := fun z hz => by
      obtain ⟨g1, g2, g3⟩ := h.a z hz
      exact ⟨g1, by omega, by rw [kold _ g2]; exact g3⟩
    rcases hmem z hz with hz | hz
    · rcases List.mem_cons.1 hz with rfl | hz
      · rw [hs.a]; exact old y hm
      · obtain ⟨g1, g2, g3, g4⟩ := hs.ea z hz
        exact ⟨g1, g3, kasm _ g2 g4⟩
    · exact old z hz.1
  · rcases hmem z hz with hz | hz
    · exact hs.w z hz
    · exact h.pos z hz.1
  · have hn := h.anodup
    rw [List.map_append, hset, List.nodup_append]
    refine ⟨?_, hs.ean, fun x hx z hz exz => ?_⟩
    · rw [e] at hn
      simpa [hs.a] using hn
    · subst exz
      obtain ⟨z, hzE, rfl⟩ := List.mem_map.1 hz
      obtain ⟨t, ht, ea⟩ := List.mem_map.1 hx
      have h1 := (hs.ea z hzE).2.1
      have h2 : t.a / 2 < n := by
        rcases List.mem_append.1 ht with ht | ht
        · exact (h.a t (by rw [e]; exact List.mem_append_left _ ht)).2.1
        · rcases List.mem_cons.1 ht with rfl | ht
          · rw [hs.a]; exact (h.a y hm).2.1
          · exact (h.a t (by rw [e]; exact List.mem_append_right _ (List.mem_cons_of_mem _ ht))).2.1
      rw [ea] at h2; omega
  · have hc := hs.cost u
    rw [← h.cost u, hset, e]
    rw [show A ++ y' :: B ++ E = A ++ ([y'] ++ (B ++ E)) by simp, show A ++ y :: B = A ++ ([y] ++ B) by simp]
    rw [show y' :: E = [y'] ++ E from rfl] at hc
    simp only [List.filter_append, List.map_append, costC_append] at hc ⊢
    omega
  · have := h.nn
    rw [kold x (by omega)]; exact h.kext x hx
  · rcases List.mem_append.1 hr with hr | hr
    · obtain ⟨g1, g2, g3, g4⟩ := h.lits r hr
      exact ⟨g1, g2, by omega, by rw [kold _ g3]; exact g4⟩
    · rw [List.mem_singleton.1 hr]
      have := h.nn
      refine ⟨by simp, by simp; omega, by simp; omega, ?_⟩
      simp [krel]
  · rw [List.map_append, List.pairwise_append]
    refine ⟨h.srt, List.pairwise_singleton _ _, fun a ha b hb => ?_⟩
    obtain ⟨r, hr, rfl⟩ := List.mem_map.1 ha
    rw [List.mem_singleton.1 hb]
    have := (h.lits r hr).2.2.1
    dsimp only
    omega
  · rcases List.mem_append.1 hr with hr | hr
    · exact h.src r hr
    · rw [List.mem_singleton.1 hr]; exact hy0
  · have h1 := h.rem u
    have h2 := hs.rv u
    have h3 : saved u mc (PL ++ [(y, 2 * p)]) = saved u mc PL + if litVal u (2 * p) && fals u y then mc else 0 := by
      unfold saved; simp
    rw [e, remW_append, remW_cons] at h1
    rw [hset, remW_append, remW_append, remW_cons, h3]
    omega
  · refine hin z (h.left z hz (List.mem_cons_of_mem _ hzr)) fun ez => hq ?_
    rw [← hyq, ← ez]; exact hzr
  · rcases h.done z hz hzc with hd | ⟨t, hp⟩
    · rcases List.mem_cons.1 hd with hd | hd
      · have hzs := h.left z hz (by rw [hd]; exact List.mem_cons_self)
        have : z = y := eq_of_a h.anodup hzs hm (by rw [hd, hyq])
        exact .inr ⟨2 * p, by rw [this]; simp⟩
      · exact .inl hd
    · exact .inr ⟨t, List.mem_append_left _ hp⟩
  · intro z hz t ht hzi hti l h1 h2
    have hu := h.uniq hS
    rcases hmem z hz with hz | ⟨hz, hzy⟩ <;> rcases hmem t ht with ht | ⟨ht, hty⟩
    · exact hs.uniq hS z hz t ht hzi hti l h1 h2
    · rcases hs.vars z hz l h1 with g | rfl
      · exact absurd (hu y hm t ht (hs.act z hz hzi) hti l g h2).symm hty
      · exact absurd h2 (hv2n t ht)
    · rcases hs.vars t ht l h2 with g | rfl
      · exact absurd (hu y hm z hz (hs.act t ht hti) hzi l g h1).symm hzy
      · exact absurd h1 (hv2n z hz)
    · exact hu z hz t ht hzi hti l h1 h2
  · obtain ⟨t, ht, hti, hsub⟩ := h.succ z hz hzi
    by_cases ety : t = y
    · subst ety
      obtain ⟨r, hr, hri, hsub'⟩ := hs.succ hti
      exact ⟨r, hnew r hr, hri, fun l hl => hsub' l (hsub l hl)⟩
    · exact ⟨t, hin t ht ety, hti, hsub⟩

/-! ## the end of the conflict -/

theorem SymOk.mono {soft soft' : List WSft} {G G' : List Cor} {x y : Nat} (h : SymOk soft G x y) (hG : ∀ g ∈ G, g ∈ G')
    (hs : ∀ y ∈ soft, y.inc = false → ∃ z ∈ soft', z.inc = false ∧ ∀ l ∈ y.vars, l ∈ z.vars) : SymOk soft' G' x y := by
  obtain ⟨g, hg, k, hk, x', hx', y', hy', h1, h2, h3, h4, e, he, f, hf, hei, hfi, m1, m2, m3, m4⟩ := h
  obtain ⟨e', he', hei', hsub⟩ := hs e he hei
  obtain ⟨f', hf', hfi', hsub'⟩ := hs f hf hfi
  exact ⟨g, hG g hg, k, hG k hk, x', hx', y', hy', h1, h2, h3, h4, e', he', f', hf', hei', hfi', hsub _ m1, hsub _ m2, hsub' _ m3, hsub' _ m4⟩

theorem remW_congr {P : Prob} {n : Nat} {K : Nat → Knd} {soft : List WSft} (h : SOk P n K soft) (hp : P.n ≤ n) {u v : Nat → Bool} (e : ∀ x < n, u x = v x) :
    remW u soft = remW v soft ∧ ∀ y ∈ soft, fals u y = fals v y := by
  have hf : ∀ y ∈ soft, fals u y = fals v y := fun y hy => by
    unfold fals
    rw [clauseVal_congr fun l hl => e _ (Nat.lt_of_lt_of_le (h.cl y hy l hl) hp), clauseVal_congr fun l hl => e _ (h.vars y hy l hl).2.1]
  refine ⟨?_, hf⟩
  unfold remW
  congr 1
  refine List.map_congr_left fun y hy => ?_
  unfold rv
  rw [hf y hy]

theorem saved_le (u : Nat → Bool) (mc : Nat) : ∀ PL : List (WSft × Nat), saved u mc PL ≤ mc * cnt u (PL.map (·.2))
  | [] => Nat.zero_le _
  | (y, p) :: PL => by
    have ih := saved_le u mc PL
    unfold saved cnt at ih ⊢
    rw [List.map_cons, List.map_cons, List.sum_cons, List.countP_cons, Nat.mul_add]
    dsimp only
    have : (if (litVal u p && fals u y) = true then mc else 0) ≤ mc * if litVal u p = true then 1 else 0 := by
      cases litVal u p <;> simp
      split <;> omega
    omega

theorem le_saved {u : Nat → Bool} {mc : Nat} : ∀ {PL : List (WSft × Nat)} {q : WSft × Nat}, q ∈ PL → litVal u q.2 = true → fals u q.1 = true → mc ≤ saved u mc PL
  | r :: PL, q, h, h1, h2 => by
    unfold saved
    rw [List.map_cons, List.sum_cons]
    rcases List.mem_cons.1 h with rfl | h
    · rw [h1, h2]; simp
    · have := le_saved (mc := mc) h h1 h2
      unfold saved at this
      omega

/-- kinds after the encoding -/
def auxK (K : Nat → Knd) (n : Nat) (L : List Nat) : Nat → Knd := fun x => if x < n then K x else .aux (L.take (x - n + 1))

/-- the conflict is relaxed -/
theorem WInv.close {P : Prob} {S : Prop} {mc n0 n lb : Nat} {hs : List (List Nat)} {soft0 soft : List WSft} {G : List Cor} {K0 K : Nat → Knd} {core : List Nat} {PL : List (WSft × Nat)} (hw : P.WF)
    (h : WInv P S n0 hs soft0 G K0 lb) (hf : FInv P S mc n0 soft0 K0 core n soft PL K []) {e : List (List Nat) × Nat} (he : encodeEO (PL.map (·.2)) n = some e)
    (hc : ∀ u : Nat → Bool, (∀ c ∈ hs, clauseVal u c = true) → (∀ y ∈ soft0, litVal u y.a = (y.inc || fals u y)) → ∃ y ∈ soft0, y.a ∈ core ∧ fals u y = true) :
    WInv P S (n + e.2) (e.1 ++ hs) soft (G ++ [⟨PL.map (·.2), n⟩]) (auxK K n (PL.map (·.2))) (lb + mc) := by
  have hne : PL.map (·.2) ≠ [] := by
    intro e0
    rw [e0] at he; cases he
  have he2 : e.2 = (PL.map (·.2)).length - 1 := by
    obtain ⟨e', h1, h2⟩ := encodeEO_some hne n
    rw [he] at h1
    rw [Option.some.inj h1]; exact h2
  have kold : ∀ x < n, auxK K n (PL.map (·.2)) x = K x := fun x hx => by unfold auxK; rw [if_pos hx]
  have k0 : ∀ x < n0, auxK K n (PL.map (·.2)) x = K0 x := fun x hx => by rw [kold x (by have := hf.nn; omega)]; exact hf.kext x hx
  have hnn := hf.nn
  have hpn := h.pn
  have hLit : ∀ l ∈ PL.map (·.2), l % 2 = 0 ∧ n0 ≤ l / 2 ∧ l / 2 < n ∧ K (l / 2) = .rel := fun l hl => by
    obtain ⟨q, hq, rfl⟩ := List.mem_map.1 hl
    exact hf.lits q hq
  have hcls : Cor.cls ⟨PL.map (·.2), n⟩ = e.1 := by unfold Cor.cls; rw [he]
  refine { cl := hf.cl, vars := fun y hy l hl => ?_, a := fun y hy => ?_, pos := hf.pos, anodup := hf.anodup, cost := hf.cost, pn := (by omega), low := fun x hx => ?_, lits := fun g hg l hl => ?_, nodup := fun g hg => ?_, aux := fun g hg => ?_, sub := fun c hc => List.mem_append_right _ (h.sub c hc), eos := fun g hg c hc => ?_, cls := fun c hc => ?_, sorted := ?_, uniq := hf.uniq, sound := fun u hu => ?_, complete := fun v hv => ?_ }
  · obtain ⟨g1, g2, g3⟩ := hf.vars y hy l hl
    exact ⟨g1, by omega, by rw [kold _ g2]; exact g3⟩
  · obtain ⟨g1, g2, g3⟩ := hf.a y hy
    exact ⟨g1, by omega, by rw [kold _ g2]; exact g3⟩
  · rw [k0 x (by omega)]; exact h.low x hx
  · rcases List.mem_append.1 hg with hg | hg
    · obtain ⟨g1, g2, g3⟩ := h.lits g hg l hl
      exact ⟨g1, by omega, by rw [k0 _ g2]; exact g3⟩
    · rw [List.mem_singleton.1 hg] at hl
      obtain ⟨g1, g2, g3, g4⟩ := hLit l hl
      exact ⟨g1, by omega, by rw [kold _ g3]; exact g4⟩
  · rcases List.mem_append.1 hg with hg | hg
    · exact h.nodup g hg
    · rw [List.mem_singleton.1 hg]
      exact ⟨hf.srt.imp fun {a b} hab => Nat.ne_of_lt hab, hne⟩
  · rcases List.mem_append.1 hg with hg | hg
    · obtain ⟨g1, g2⟩ := h.aux g hg
      exact ⟨by omega, fun i hi => by rw [k0 _ (by omega)]; exact g2 i hi⟩
    · rw [List.mem_singleton.1 hg]
      refine ⟨by dsimp only; omega, fun i hi => ?_⟩
      dsimp only
      unfold auxK
      rw [if_neg (by omega), show n + i - n + 1 = i + 1 by omega]
  · rcases List.mem_append.1 hg with hg | hg
    · exact List.mem_append_right _ (h.eos g hg c hc)
    · rw [List.mem_singleton.1 hg, hcls] at hc
      exact List.mem_append_left _ hc
  · rcases List.mem_append.1 hc with hc | hc
    · exact .inr (.inl ⟨_, List.mem_append_right _ (List.mem_singleton.2 rfl), by rw [hcls]; exact hc⟩)
    · rcases h.cls c hc with hc | ⟨g, hg, hc⟩ | ⟨hS, x, y, ec, hsym⟩
      · exact .inl hc
      · exact .inr (.inl ⟨g, List.mem_append_left _ hg, hc⟩)
      · exact .inr (.inr ⟨hS, x, y, ec, hsym.mono (fun g hg => List.mem_append_left _ hg) hf.succ⟩)
  · rw [List.pairwise_append]
    refine ⟨h.sorted, List.pairwise_singleton _ _, fun g hg k hk a ha b hb => ?_⟩
    rw [List.mem_singleton.1 hk] at hb
    have := (h.lits g hg a ha).2.1
    have := (hLit b hb).2.1
    omega
  · have h1 := h.sound u fun g hg => hu g (List.mem_append_left _ hg)
    have h2 := hf.rem u
    have h3 := saved_le u mc PL
    have h4 : cnt u (PL.map (·.2)) ≤ 1 := hu ⟨PL.map (·.2), n⟩ (List.mem_append_right _ (List.mem_singleton.2 rfl))
    have h5 : mc * cnt u (PL.map (·.2)) ≤ mc * 1 := Nat.mul_le_mul_left _ h4
    omega
  · obtain ⟨u, u1, u2, u3, u4, u5⟩ := h.model hw hv
    obtain ⟨y, hy, hyc, hyf⟩ := hc u u2 u3
    obtain ⟨p, hp⟩ : ∃ p, (y, p) ∈ PL := by
      rcases hf.done y hy hyc with hd | hd
      · cases hd
      · exact hd
    obtain ⟨p1, p2, p3, p4⟩ := hf.lits _ hp
    obtain ⟨w, hwd⟩ : ∃ w : Nat → Bool, (fun x => if x < n0 then u x else decide (x = p / 2)) = w := ⟨_, rfl⟩
    have hold : ∀ x < n0, w x = u x := fun x hx => by rw [← hwd]; dsimp only; rw [if_pos hx]
    have hnew : ∀ x, n0 ≤ x → w x = decide (x = p / 2) := fun x hx => by rw [← hwd]; dsimp only; rw [if_neg (by omega)]
    obtain ⟨r1, r2⟩ := remW_congr h.toSOk hpn hold
    refine ⟨w, fun x hx => by rw [hold x (by omega), u1 x hx], fun g hg => ?_, ?_⟩
    · rcases List.mem_append.1 hg with hg | hg
      · obtain ⟨l, hl, hu⟩ := u4 g hg
        exact ⟨l, hl, fun m hm => by rw [litVal_congr (hold _ (h.lits g hg m hm).2.1)]; exact hu m hm⟩
      · rw [List.mem_singleton.1 hg]
        refine ⟨p, List.mem_map.2 ⟨_, hp, rfl⟩, fun m hm => ?_⟩
        obtain ⟨m1, m2, m3, m4⟩ := hLit m hm
        dsimp only at p1
        rw [litVal_even m1, hnew _ m2, decide_eq_true_iff, half_inj m1 p1]
    · have h1 := hf.rem w
      have h2 : mc ≤ saved w mc PL := le_saved hp (by dsimp only at p1 p2 ⊢; rw [litVal_even p1, hnew _ p2]; simp) (by rw [r2 y hy]; exact hyf)
      omega

end Verif.MaxAlg
