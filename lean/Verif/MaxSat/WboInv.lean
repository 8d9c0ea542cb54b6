import Verif.MaxSat.Wbo
import Verif.MaxSat.OllSearch

/-! # WBO: the encoding of exactly one, the invariant -/

namespace Verif.MaxAlg

open Verif.MaxSat (litVal clauseVal costC)

/-! ## exactly one -/

/-- one literal is true -/
def E1 (u : Nat → Bool) (L : List Nat) : Prop := ∃ l ∈ L, ∀ m ∈ L, litVal u m = true ↔ m = l

theorem clauseVal_two (u : Nat → Bool) (a b : Nat) : clauseVal u [a, b] = (litVal u a || litVal u b) := by simp [clauseVal]

theorem clauseVal_three (u : Nat → Bool) (a b c : Nat) : clauseVal u [a, b, c] = (litVal u a || (litVal u b || litVal u c)) := by simp [clauseVal]

theorem mem_ladder {lits : List Nat} {b : Nat} {c : List Nat} : c ∈ ladder lits b ↔ ∃ i l, lits[i]? = some l ∧
    c ∈ (if i = 0 then [[l, neg (2 * b)], [neg l, 2 * b]]
      else if i + 1 = lits.length then [[l, 2 * (b + i - 1)], [neg l, neg (2 * (b + i - 1))]]
      else [[neg (2 * (b + i - 1)), 2 * (b + i)], [l, neg (2 * (b + i)), 2 * (b + i - 1)], [neg l, 2 * (b + i)], [neg l, neg (2 * (b + i - 1))]]) := by
  unfold ladder
  rw [List.mem_flatMap]
  constructor
  · rintro ⟨⟨l, i⟩, hm, hc⟩
    exact ⟨i, l, List.mem_zipIdx_iff_getElem?.1 hm, hc⟩
  · rintro ⟨i, l, hm, hc⟩
    exact ⟨(l, i), List.mem_zipIdx_iff_getElem?.2 hm, hc⟩

theorem pairwise_cnt {u : Nat → Bool} : ∀ {L : List Nat}, L.Pairwise (fun a b => litVal u a = true → litVal u b = false) → cnt u L ≤ 1
  | [], _ => by simp [cnt]
  | a :: L, h => by
    rw [List.pairwise_cons] at h
    have ih := pairwise_cnt h.2
    unfold cnt at ih ⊢
    rw [List.countP_cons]
    by_cases ha : litVal u a = true
    · rw [if_pos ha]
      have : L.countP (litVal u) = 0 := List.countP_eq_zero.2 fun b hb => by rw [h.1 b hb ha]; simp
      omega
    · rw [if_neg ha]; omega

theorem ladder_sound {u : Nat → Bool} {L : List Nat} {b : Nat} (hl : 2 ≤ L.length) (h : ∀ c ∈ ladder L b, clauseVal u c = true) : cnt u L ≤ 1 := by
  have key : ∀ d i l, L[i]? = some l → litVal u l = true → i + d + 1 < L.length → u (b + i + d) = true := by
    intro d
    induction d with
    | zero =>
      intro i l hi ht hlt
      by_cases h0 : i = 0
      · subst h0
        have := h [neg l, 2 * b] (mem_ladder.2 ⟨0, l, hi, by simp⟩)
        rw [clauseVal_two, litVal_neg, ht, litVal_two] at this
        simpa using this
      · have := h [neg l, 2 * (b + i)] (mem_ladder.2 ⟨i, l, hi, by rw [if_neg h0, if_neg (by omega)]; simp⟩)
        rw [clauseVal_two, litVal_neg, ht, litVal_two] at this
        simpa using this
    | succ d ih =>
      intro i l hi ht hlt
      have h1 := ih i l hi ht (by omega)
      obtain ⟨m, hm⟩ : ∃ m, L[i + d + 1]? = some m := ⟨L[i + d + 1]'(by omega), List.getElem?_eq_getElem _⟩
      have := h [neg (2 * (b + (i + d + 1) - 1)), 2 * (b + (i + d + 1))] (mem_ladder.2 ⟨i + d + 1, m, hm, by rw [if_neg (by omega), if_neg (by omega)]; simp⟩)
      rw [show b + (i + d + 1) - 1 = b + i + d by omega, clauseVal_two, litVal_neg, litVal_two, litVal_two, h1] at this
      rw [show b + i + (d + 1) = b + (i + d + 1) by omega]
      simpa using this
  refine pairwise_cnt (List.pairwise_iff_getElem.2 fun i j hi hj hij ht => ?_)
  have h1 := key (j - 1 - i) i _ (List.getElem?_eq_getElem hi) ht (by omega)
  rw [show b + i + (j - 1 - i) = b + j - 1 by omega] at h1
  have h2 : clauseVal u [neg L[j], neg (2 * (b + j - 1))] = true := by
    refine h _ (mem_ladder.2 ⟨j, L[j], List.getElem?_eq_getElem hj, ?_⟩)
    rw [if_neg (by omega)]
    split <;> simp
  rw [clauseVal_two, litVal_neg, litVal_neg, litVal_two, h1] at h2
  simpa using h2

theorem ladder_complete {u : Nat → Bool} {L : List Nat} {b : Nat} (hl : 2 ≤ L.length) (hn : L.Nodup) (h1 : E1 u L) (ha : ∀ i < L.length - 1, u (b + i) = (L.take (i + 1)).any (litVal u)) :
    ∀ c ∈ ladder L b, clauseVal u c = true := by
  obtain ⟨l, hlm, hu⟩ := h1
  obtain ⟨k, hk, rfl⟩ := List.getElem_of_mem hlm
  have hlit : ∀ i (hi : i < L.length), litVal u L[i] = decide (i = k) := by
    intro i hi
    rw [Bool.eq_iff_iff, hu _ (List.getElem_mem hi), decide_eq_true_iff]
    exact hn.getElem_inj_iff
  have haux : ∀ i < L.length - 1, u (b + i) = decide (k ≤ i) := by
    intro i hi
    rw [ha i hi, Bool.eq_iff_iff, List.any_eq_true, decide_eq_true_iff]
    constructor
    · rintro ⟨x, hx, ht⟩
      obtain ⟨j, hj, rfl⟩ := List.getElem_of_mem hx
      rw [List.getElem_take] at ht
      rw [List.length_take] at hj
      rw [hlit j (by omega), decide_eq_true_iff] at ht
      omega
    · intro hki
      refine ⟨L[k], ?_, by rw [hlit k hk]; simp⟩
      rw [List.mem_take_iff_getElem]
      exact ⟨k, by omega, rfl⟩
  intro c hc
  obtain ⟨i, l, hi, hc⟩ := mem_ladder.1 hc
  obtain ⟨hii, rfl⟩ := List.getElem?_eq_some_iff.1 hi
  have e1 := hlit i hii
  split at hc
  · subst_vars
    have e2 := haux 0 (by omega)
    rcases List.mem_cons.1 hc with rfl | hc
    · rw [clauseVal_two, litVal_neg, litVal_two, e1, show b = b + 0 from rfl, e2]
      by_cases hk0 : k = 0
      · simp [hk0]
      · simp [hk0]
    · rw [List.mem_singleton.1 hc, clauseVal_two, litVal_neg, litVal_two, e1, show b = b + 0 from rfl, e2]
      by_cases hk0 : k = 0
      · simp [hk0]
      · simp [hk0]; omega
  · rename_i h0
    have e2 := haux (i - 1) (by omega)
    rw [show b + (i - 1) = b + i - 1 by omega] at e2
    split at hc
    · rename_i hlast
      rcases List.mem_cons.1 hc with rfl | hc
      · rw [clauseVal_two, litVal_two, e1, e2, Bool.or_eq_true, decide_eq_true_iff, decide_eq_true_iff]; omega
      · rw [List.mem_singleton.1 hc, clauseVal_two, litVal_neg, litVal_neg, litVal_two, e1, e2, Bool.or_eq_true, Bool.not_eq_true', Bool.not_eq_true', decide_eq_false_iff_not, decide_eq_false_iff_not]; omega
    · rename_i hlast
      have e3 := haux i (by omega)
      simp only [List.mem_cons, List.not_mem_nil, or_false] at hc
      rcases hc with rfl | rfl | rfl | rfl
      · rw [clauseVal_two, litVal_neg, litVal_two, litVal_two, e2, e3, Bool.or_eq_true, Bool.not_eq_true', decide_eq_false_iff_not, decide_eq_true_iff]; omega
      · rw [clauseVal_three, litVal_neg, litVal_two, litVal_two, e1, e2, e3, Bool.or_eq_true, Bool.or_eq_true, Bool.not_eq_true', decide_eq_false_iff_not, decide_eq_true_iff, decide_eq_true_iff]; omega
      · rw [clauseVal_two, litVal_neg, litVal_two, e1, e3, Bool.or_eq_true, Bool.not_eq_true', decide_eq_false_iff_not, decide_eq_true_iff]; omega
      · rw [clauseVal_two, litVal_neg, litVal_neg, litVal_two, e1, e2, Bool.or_eq_true, Bool.not_eq_true', Bool.not_eq_true', decide_eq_false_iff_not, decide_eq_false_iff_not]; omega

theorem encodeEO_sound {u : Nat → Bool} {L : List Nat} {b : Nat} {e : List (List Nat) × Nat} (he : encodeEO L b = some e) (h : ∀ c ∈ e.1, clauseVal u c = true) : cnt u L ≤ 1 := by
  unfold encodeEO at he
  split at he
  · cases he
  · exact cnt_le _ _
  · rename_i h0 h1
    rw [← Option.some.inj he] at h
    refine ladder_sound ?_ h
    match L, h0, h1 with
    | [], h0, _ => exact absurd rfl h0
    | [a], _, h1 => exact absurd rfl (h1 a)
    | a :: b :: L, _, _ => simp

theorem encodeEO_complete {u : Nat → Bool} {L : List Nat} {b : Nat} {e : List (List Nat) × Nat} (he : encodeEO L b = some e) (hn : L.Nodup) (h1 : E1 u L)
    (ha : ∀ i < L.length - 1, u (b + i) = (L.take (i + 1)).any (litVal u)) : ∀ c ∈ e.1, clauseVal u c = true := by
  unfold encodeEO at he
  split at he
  · cases he
  · rw [← Option.some.inj he]
    intro c hc
    rw [List.mem_singleton.1 hc]
    obtain ⟨l, hl, hu⟩ := h1
    exact clauseVal_iff.2 ⟨l, hl, (hu l hl).2 rfl⟩
  · rename_i h0 h2
    rw [← Option.some.inj he]
    refine ladder_complete ?_ hn h1 ha
    match L, h0, h2 with
    | [], h0, _ => exact absurd rfl h0
    | [a], _, h1 => exact absurd rfl (h1 a)
    | a :: b :: L, _, _ => simp

theorem encodeEO_some {L : List Nat} (h : L ≠ []) (b : Nat) : ∃ e, encodeEO L b = some e ∧ e.2 = L.length - 1 := by
  unfold encodeEO
  split
  · exact absurd rfl h
  · exact ⟨_, rfl, rfl⟩
  · exact ⟨_, rfl, rfl⟩

/-! ## the invariant -/

/-- kinds of variables: of the problem, relaxation variables, assumption literals, auxiliary variables with the literals they stand for -/
inductive Knd where
  | base
  | rel
  | asm
  | aux (pre : List Nat)

/-- a relaxed conflict: its relaxation literals and its first auxiliary variable -/
structure Cor where
  lits : List Nat
  b : Nat

def Cor.cls (g : Cor) : List (List Nat) := match encodeEO g.lits g.b with
  | none => []
  | some e => e.1

/-- the soft clause is violated and not relaxed -/
def fals (u : Nat → Bool) (y : WSft) : Bool := !(clauseVal u y.cl || clauseVal u y.vars)

def rv (u : Nat → Bool) (y : WSft) : Nat := if y.inc || !fals u y then 0 else y.w

/-- the weight of the soft clauses that are violated and not relaxed -/
def remW (u : Nat → Bool) (soft : List WSft) : Nat := (soft.map (rv u)).sum

/-- what makes a symmetry clause sound: the two relaxations can be exchanged -/
def SymOk (soft : List WSft) (G : List Cor) (x y : Nat) : Prop := ∃ g ∈ G, ∃ h ∈ G, ∃ x' ∈ g.lits, ∃ y' ∈ h.lits, x ∈ g.lits ∧ y ∈ h.lits ∧ (∀ a ∈ g.lits, ∀ b ∈ h.lits, a < b) ∧ y' < y ∧
  ∃ e ∈ soft, ∃ f ∈ soft, e.inc = false ∧ f.inc = false ∧ x ∈ e.vars ∧ y' ∈ e.vars ∧ x' ∈ f.vars ∧ y ∈ f.vars

/-- the soft clauses -/
structure SOk (P : Prob) (n : Nat) (K : Nat → Knd) (soft : List WSft) : Prop where
  cl : ∀ y ∈ soft, ∀ l ∈ y.cl, l / 2 < P.n
  vars : ∀ y ∈ soft, ∀ l ∈ y.vars, l % 2 = 0 ∧ l / 2 < n ∧ K (l / 2) = .rel
  a : ∀ y ∈ soft, y.a % 2 = 0 ∧ y.a / 2 < n ∧ K (y.a / 2) = .asm
  pos : ∀ y ∈ soft, 0 < y.w
  anodup : (soft.map (·.a)).Nodup
  cost : ∀ u, costC u ((soft.filter fun y => !y.inc).map fun y => (y.cl, y.w)) = costC u P.soft

/-- no relaxation variable in two active soft clauses -/
def UniqV (soft : List WSft) : Prop := ∀ y ∈ soft, ∀ z ∈ soft, y.inc = false → z.inc = false → ∀ l, l ∈ y.vars → l ∈ z.vars → y = z

/-- `n` variables, clauses `hs`, relaxed conflicts `G`; symmetry clauses only if `S` -/
structure WInv (P : Prob) (S : Prop) (n : Nat) (hs : List (List Nat)) (soft : List WSft) (G : List Cor) (K : Nat → Knd) (lb : Nat) : Prop extends SOk P n K soft where
  pn : P.n ≤ n
  low : ∀ x < P.n, K x = .base
  lits : ∀ g ∈ G, ∀ l ∈ g.lits, l % 2 = 0 ∧ l / 2 < n ∧ K (l / 2) = .rel
  nodup : ∀ g ∈ G, g.lits.Nodup ∧ g.lits ≠ []
  aux : ∀ g ∈ G, g.b + (g.lits.length - 1) ≤ n ∧ ∀ i < g.lits.length - 1, K (g.b + i) = .aux (g.lits.take (i + 1))
  sub : ∀ c ∈ P.hard, c ∈ hs
  eos : ∀ g ∈ G, ∀ c ∈ g.cls, c ∈ hs
  cls : ∀ c ∈ hs, c ∈ P.hard ∨ (∃ g ∈ G, c ∈ g.cls) ∨ (S ∧ ∃ x y, c = [neg x, neg y] ∧ SymOk soft G x y)
  sorted : G.Pairwise fun g h => ∀ a ∈ g.lits, ∀ b ∈ h.lits, a < b
  uniq : S → UniqV soft
  sound : ∀ u, (∀ g ∈ G, cnt u g.lits ≤ 1) → costC u P.soft ≤ lb + remW u soft
  complete : ∀ v, P.Holds v → ∃ u : Nat → Bool, (∀ x < P.n, u x = v x) ∧ (∀ g ∈ G, E1 u g.lits) ∧ lb + remW u soft ≤ costC v P.soft

/-! ## symmetry clauses -/

/-- the assignment as a binary number -/
def mu (u : Nat → Bool) : Nat → Nat
  | 0 => 0
  | n + 1 => mu u n + if u n then 2 ^ n else 0

theorem mu_lt (u : Nat → Bool) : ∀ n, mu u n < 2 ^ n
  | 0 => by simp [mu]
  | n + 1 => by
    have := mu_lt u n
    rw [mu, Nat.pow_succ]
    split <;> omega

theorem mu_dec {u v : Nat → Bool} {k : Nat} (hu : u k = true) (hv : v k = false) (h : ∀ x, k < x → v x = u x) : ∀ n, k < n → mu v n < mu u n
  | 0, h => absurd h (Nat.not_lt_zero _)
  | n + 1, hk => by
    rw [mu, mu]
    by_cases e : k = n
    · subst e
      rw [hu, hv]
      have := mu_lt v k
      simp; omega
    · rw [h n (by omega)]
      have := mu_dec hu hv h n (by omega)
      omega

/-- the two relaxations are exchanged -/
def swapW (u : Nat → Bool) (x y x' y' : Nat) : Nat → Bool := fun v => if v = x' / 2 ∨ v = y' / 2 then true else if v = x / 2 ∨ v = y / 2 then false else u v

theorem litVal_even {u : Nat → Bool} {l : Nat} (h : l % 2 = 0) : litVal u l = u (l / 2) := by unfold litVal; rw [if_pos h]

theorem half_inj {a b : Nat} (ha : a % 2 = 0) (hb : b % 2 = 0) : a / 2 = b / 2 ↔ a = b := by omega

theorem litVal_swapW {u : Nat → Bool} {x y x' y' l : Nat} (hx : x % 2 = 0) (hy : y % 2 = 0) (hx' : x' % 2 = 0) (hy' : y' % 2 = 0) (hl : l % 2 = 0) :
    litVal (swapW u x y x' y') l = if l = x' ∨ l = y' then true else if l = x ∨ l = y then false else litVal u l := by
  rw [litVal_even hl, litVal_even hl]
  unfold swapW
  simp only [half_inj hl hx', half_inj hl hy', half_inj hl hx, half_inj hl hy]

theorem WInv.core_eq {P : Prob} {S : Prop} {n lb : Nat} {hs : List (List Nat)} {soft : List WSft} {G : List Cor} {K : Nat → Knd} (h : WInv P S n hs soft G K lb) :
    ∀ g ∈ G, ∀ k ∈ G, ∀ l, l ∈ g.lits → l ∈ k.lits → g = k := by
  intro g hg k hk l h1 h2
  obtain ⟨i, hi, rfl⟩ := List.getElem_of_mem hg
  obtain ⟨j, hj, rfl⟩ := List.getElem_of_mem hk
  have hp := List.pairwise_iff_getElem.1 h.sorted
  rcases Nat.lt_trichotomy i j with e | e | e
  · exact absurd (hp i j hi hj e l h1 l h2) (Nat.lt_irrefl _)
  · subst e; rfl
  · exact absurd (hp j i hj hi e l h2 l h1) (Nat.lt_irrefl _)

theorem E1.swap {u : Nat → Bool} {L : List Nat} {x y x' y' : Nat} (h : E1 u L) (hL : ∀ l ∈ L, l % 2 = 0) (hx : x % 2 = 0) (hy : y % 2 = 0) (hx' : x' % 2 = 0) (hy' : y' % 2 = 0)
    (hxm : x ∈ L) (ht : litVal u x = true) (hxm' : x' ∈ L) (h1 : y ∉ L) (h2 : y' ∉ L) : E1 (swapW u x y x' y') L := by
  obtain ⟨l, hl, hu⟩ := h
  have e := (hu x hxm).1 ht
  subst e
  refine ⟨x', hxm', fun m hm => ?_⟩
  rw [litVal_swapW hx hy hx' hy' (hL m hm)]
  by_cases e1 : m = x'
  · rw [if_pos (.inl e1)]; simp [e1]
  · rw [if_neg (by rintro (e | e); exacts [e1 e, h2 (e ▸ hm)])]
    by_cases e2 : m = x
    · rw [if_pos (.inl e2)]; simp [e1]
    · rw [if_neg (by rintro (e | e); exacts [e2 e, h1 (e ▸ hm)]), hu m hm]
      simp [e1, e2]

theorem swapW_comm (u : Nat → Bool) (x y x' y' : Nat) : swapW u x y x' y' = swapW u y x y' x' := by
  funext v
  unfold swapW
  exact ite_congr (propext or_comm) (fun _ => rfl) fun _ => ite_congr (propext or_comm) (fun _ => rfl) fun _ => rfl

/-- exchanging two relaxations changes nothing else and decreases the number -/
theorem WInv.exchange {P : Prob} {S : Prop} {n lb : Nat} {hs : List (List Nat)} {soft : List WSft} {G : List Cor} {K : Nat → Knd} (h : WInv P S n hs soft G K lb) (hS : S) {x y : Nat}
    (hsym : SymOk soft G x y) {u : Nat → Bool} (hE : ∀ g ∈ G, E1 u g.lits) (hx : litVal u x = true) (hy : litVal u y = true) :
    ∃ u' : Nat → Bool, (∀ v < P.n, u' v = u v) ∧ (∀ g ∈ G, E1 u' g.lits) ∧ remW u' soft = remW u soft ∧ mu u' n < mu u n := by
  obtain ⟨g, hg, k, hk, x', hx', y', hy', hxm, hym, hlt, hyy, e, he, f, hf, hei, hfi, m1, m2, m3, m4⟩ := hsym
  obtain ⟨x0, x1, x2⟩ := h.lits g hg x hxm
  obtain ⟨y0, y1, y2⟩ := h.lits k hk y hym
  obtain ⟨x0', x1', x2'⟩ := h.lits g hg x' hx'
  obtain ⟨y0', y1', y2'⟩ := h.lits k hk y' hy'
  have hdis : ∀ l, l ∈ g.lits → l ∉ k.lits := fun l h1 h2 => Nat.lt_irrefl _ (hlt l h1 l h2)
  have hbase : ∀ {l : Nat}, K (l / 2) = .rel → ∀ v < P.n, v ≠ l / 2 := fun {l} hr v hv e => by
    have := h.low v hv
    rw [e, hr] at this; cases this
  have hold : ∀ v < P.n, swapW u x y x' y' v = u v := fun v hv => by
    unfold swapW
    rw [if_neg (by rintro (e | e); exacts [hbase x2' v hv e, hbase y2' v hv e]), if_neg (by rintro (e | e); exacts [hbase x2 v hv e, hbase y2 v hv e])]
  refine ⟨swapW u x y x' y', hold, fun c hc => ?_, ?_, ?_⟩
  · have hev : ∀ l ∈ c.lits, l % 2 = 0 := fun l hl => (h.lits c hc l hl).1
    by_cases hcg : c = g
    · subst hcg
      exact (hE c hc).swap hev x0 y0 x0' y0' hxm hx hx' (fun e => hdis _ e hym) fun e => hdis _ e hy'
    · by_cases hck : c = k
      · subst hck
        rw [swapW_comm]
        exact (hE c hc).swap hev y0 x0 y0' x0' hym hy hy' (fun e => hdis _ hxm e) fun e => hdis _ hx' e
      · obtain ⟨l, hl, hu⟩ := hE c hc
        refine ⟨l, hl, fun m hm => ?_⟩
        rw [litVal_swapW x0 y0 x0' y0' (hev m hm)]
        have g1 : ∀ {z}, z ∈ g.lits → m ≠ z := fun {z} hz e => hcg (h.core_eq c hc g hg m hm (e ▸ hz))
        have g2 : ∀ {z}, z ∈ k.lits → m ≠ z := fun {z} hz e => hck (h.core_eq c hc k hk m hm (e ▸ hz))
        rw [if_neg (by rintro (e | e); exacts [g1 hx' e, g2 hy' e]), if_neg (by rintro (e | e); exacts [g1 hxm e, g2 hym e])]
        exact hu m hm
  · unfold remW
    congr 1
    refine List.map_congr_left fun z hz => ?_
    unfold rv
    cases hzi : z.inc with
    | true => simp
    | false =>
      have h1 : clauseVal (swapW u x y x' y') z.cl = clauseVal u z.cl := clauseVal_congr fun l hl => hold _ (h.cl z hz l hl)
      have hlv : ∀ l ∈ z.vars, litVal (swapW u x y x' y') l = if l = x' ∨ l = y' then true else if l = x ∨ l = y then false else litVal u l :=
        fun l hl => litVal_swapW x0 y0 x0' y0' (h.vars z hz l hl).1
      have h2 : clauseVal (swapW u x y x' y') z.vars = clauseVal u z.vars := by
        by_cases hze : z = e
        · subst hze
          rw [clauseVal_iff.2 ⟨x, m1, hx⟩, clauseVal_iff.2 ⟨y', m2, by rw [hlv y' m2, if_pos (.inr rfl)]⟩]
        · by_cases hzf : z = f
          · subst hzf
            rw [clauseVal_iff.2 ⟨y, m4, hy⟩, clauseVal_iff.2 ⟨x', m3, by rw [hlv x' m3, if_pos (.inl rfl)]⟩]
          · rw [Bool.eq_iff_iff, clauseVal_iff, clauseVal_iff]
            refine exists_congr fun l => and_congr_right fun hl => ?_
            have g1 : ∀ {w}, w ∈ e.vars → l ≠ w := fun {w} hw ee => hze (h.uniq hS z hz e he hzi hei l hl (ee ▸ hw))
            have g2 : ∀ {w}, w ∈ f.vars → l ≠ w := fun {w} hw ee => hzf (h.uniq hS z hz f hf hzi hfi l hl (ee ▸ hw))
            rw [hlv l hl, if_neg (by rintro (e | e); exacts [g2 m3 e, g1 m2 e]), if_neg (by rintro (e | e); exacts [g1 m1 e, g2 m4 e])]
      unfold fals
      rw [h1, h2]
  · have l1 := hlt x hxm y hym
    have l2 := hlt x' hx' y hym
    refine mu_dec (k := y / 2) ((litVal_even y0).symm.trans hy) ?_ (fun v hv => ?_) n y1
    · unfold swapW
      rw [if_neg (by omega), if_pos (.inr rfl)]
    · unfold swapW
      rw [if_neg (by omega), if_neg (by omega)]

/-- the symmetry clauses exclude no cost -/
theorem WInv.symmetric {P : Prob} {S : Prop} {n lb : Nat} {hs : List (List Nat)} {soft : List WSft} {G : List Cor} {K : Nat → Knd} (h : WInv P S n hs soft G K lb) (hS : S) :
    ∀ (m : Nat) (u : Nat → Bool), mu u n ≤ m → (∀ g ∈ G, E1 u g.lits) →
    ∃ u' : Nat → Bool, (∀ v < P.n, u' v = u v) ∧ (∀ g ∈ G, E1 u' g.lits) ∧ remW u' soft = remW u soft ∧ ∀ x y, SymOk soft G x y → ¬ (litVal u' x = true ∧ litVal u' y = true) := by
  intro m
  induction m with
  | zero =>
    intro u hm hE
    refine ⟨u, fun _ _ => rfl, hE, rfl, fun x y hs ⟨hx, hy⟩ => ?_⟩
    obtain ⟨u', _, _, _, hlt⟩ := h.exchange hS hs hE hx hy
    omega
  | succ m ih =>
    intro u hm hE
    by_cases hb : ∃ x y, SymOk soft G x y ∧ litVal u x = true ∧ litVal u y = true
    · obtain ⟨x, y, hs, hx, hy⟩ := hb
      obtain ⟨u1, a1, a2, a3, a4⟩ := h.exchange hS hs hE hx hy
      obtain ⟨u2, b1, b2, b3, b4⟩ := ih u1 (by omega) a2
      exact ⟨u2, fun v hv => by rw [b1 v hv, a1 v hv], b2, by rw [b3, a3], b4⟩
    · exact ⟨u, fun _ _ => rfl, hE, rfl, fun x y hs ⟨hx, hy⟩ => hb ⟨x, y, hs, hx, hy⟩⟩

/-! ## models of the clauses -/

/-- auxiliary variables and assumption literals get the values they stand for -/
def fixW (K : Nat → Knd) (soft : List WSft) (u : Nat → Bool) : Nat → Bool := fun x => match K x with
  | .base => u x
  | .rel => u x
  | .asm => soft.any fun y => decide (y.a = 2 * x) && (y.inc || fals u y)
  | .aux pre => pre.any (litVal u)

theorem any_congr' {l : List Nat} {f g : Nat → Bool} (h : ∀ x ∈ l, f x = g x) : l.any f = l.any g := by
  induction l with
  | nil => rfl
  | cons a l ih => rw [List.any_cons, List.any_cons, h a List.mem_cons_self, ih fun x hx => h x (List.mem_cons_of_mem _ hx)]

theorem eq_of_a {soft : List WSft} (hn : (soft.map (·.a)).Nodup) {y z : WSft} (hy : y ∈ soft) (hz : z ∈ soft) (h : y.a = z.a) : y = z := by
  obtain ⟨i, hi, rfl⟩ := List.getElem_of_mem hy
  obtain ⟨j, hj, rfl⟩ := List.getElem_of_mem hz
  have := (List.Nodup.getElem_inj_iff hn (hi := by simpa using hi) (hj := by simpa using hj)).1 (by simpa using h)
  subst this; rfl

theorem WInv.model {P : Prob} {S : Prop} {n lb : Nat} {hs : List (List Nat)} {soft : List WSft} {G : List Cor} {K : Nat → Knd} (hw : P.WF) (h : WInv P S n hs soft G K lb) {v : Nat → Bool}
    (hv : P.Holds v) : ∃ u : Nat → Bool, (∀ x < P.n, u x = v x) ∧ (∀ c ∈ hs, clauseVal u c = true) ∧ (∀ y ∈ soft, litVal u y.a = (y.inc || fals u y)) ∧ (∀ g ∈ G, E1 u g.lits) ∧
      lb + remW u soft ≤ costC v P.soft := by
  obtain ⟨u, hu1, hu2, hu3, hu4⟩ : ∃ u : Nat → Bool, (∀ x < P.n, u x = v x) ∧ (∀ g ∈ G, E1 u g.lits) ∧ lb + remW u soft ≤ costC v P.soft ∧
      (S → ∀ x y, SymOk soft G x y → ¬ (litVal u x = true ∧ litVal u y = true)) := by
    obtain ⟨u, a1, a2, a3⟩ := h.complete v hv
    by_cases hS : S
    · obtain ⟨u', b1, b2, b3, b4⟩ := h.symmetric hS _ u (Nat.le_refl _) a2
      exact ⟨u', fun x hx => by rw [b1 x hx, a1 x hx], b2, by rw [b3]; exact a3, fun _ => b4⟩
    · exact ⟨u, a1, a2, a3, fun e => absurd e hS⟩
  obtain ⟨w, hwd⟩ : ∃ w, fixW K soft u = w := ⟨_, rfl⟩
  have hrel : ∀ l, K (l / 2) = .rel → litVal w l = litVal u l := fun l hl => litVal_congr (by rw [← hwd]; unfold fixW; rw [hl])
  have hbase : ∀ x < P.n, w x = u x := fun x hx => by rw [← hwd]; unfold fixW; rw [h.low x hx]
  have hcl : ∀ y ∈ soft, clauseVal w y.cl = clauseVal u y.cl := fun y hy => clauseVal_congr fun l hl => hbase _ (h.cl y hy l hl)
  have hvars : ∀ y ∈ soft, clauseVal w y.vars = clauseVal u y.vars := fun y hy => by
    rw [Bool.eq_iff_iff, clauseVal_iff, clauseVal_iff]
    exact exists_congr fun l => and_congr_right fun hl => by rw [hrel l (h.vars y hy l hl).2.2]
  have hfals : ∀ y ∈ soft, fals w y = fals u y := fun y hy => by unfold fals; rw [hcl y hy, hvars y hy]
  have hE : ∀ g ∈ G, E1 w g.lits := fun g hg => by
    obtain ⟨l, hl, hu⟩ := hu2 g hg
    exact ⟨l, hl, fun m hm => by rw [hrel m (h.lits g hg m hm).2.2]; exact hu m hm⟩
  refine ⟨w, fun x hx => by rw [hbase x hx, hu1 x hx], fun c hc => ?_, fun y hy => ?_, hE, ?_⟩
  · rcases h.cls c hc with hc | ⟨g, hg, hc⟩ | ⟨hS, x, y, rfl, hsym⟩
    · exact (Prob.holds_congr hw (u := w) (w := v) fun x hx => by rw [hbase x hx, hu1 x hx]).2 hv c hc
    · unfold Cor.cls at hc
      split at hc
      · cases hc
      · rename_i e he
        refine encodeEO_complete he (h.nodup g hg).1 (hE g hg) (fun i hi => ?_) c hc
        have : w (g.b + i) = (g.lits.take (i + 1)).any (litVal u) := by rw [← hwd]; unfold fixW; rw [(h.aux g hg).2 i hi]
        rw [this]
        exact any_congr' fun l hl => (hrel l (h.lits g hg l (List.mem_of_mem_take hl)).2.2).symm
    · have hn := hu4 hS x y hsym
      obtain ⟨g, hg, k, hk, x', hx', y', hy', hxm, hym, _⟩ := hsym
      rw [clauseVal_two, litVal_neg, litVal_neg, hrel x (h.lits g hg x hxm).2.2, hrel y (h.lits k hk y hym).2.2]
      cases hx : litVal u x <;> cases hy : litVal u y <;> simp_all
  · obtain ⟨a1, a2, a3⟩ := h.a y hy
    rw [litVal_even a1, hfals y hy]
    have : w (y.a / 2) = soft.any fun z => decide (z.a = 2 * (y.a / 2)) && (z.inc || fals u z) := by rw [← hwd]; unfold fixW; rw [a3]
    rw [this, show 2 * (y.a / 2) = y.a by omega, Bool.eq_iff_iff, List.any_eq_true]
    constructor
    · rintro ⟨z, hz, ht⟩
      rw [Bool.and_eq_true, decide_eq_true_iff] at ht
      rw [← eq_of_a h.anodup hz hy ht.1]; exact ht.2
    · intro ht
      exact ⟨y, hy, by rw [ht]; simp⟩
  · have : remW w soft = remW u soft := by
      unfold remW
      congr 1
      refine List.map_congr_left fun y hy => ?_
      unfold rv
      rw [hfals y hy]
    rw [this]; exact hu3

/-- the lower bound -/
theorem WInv.lower {P : Prob} {S : Prop} {n lb : Nat} {hs : List (List Nat)} {soft : List WSft} {G : List Cor} {K : Nat → Knd} (h : WInv P S n hs soft G K lb) {v : Nat → Bool} (hv : P.Holds v) :
    lb ≤ costC v P.soft := by
  obtain ⟨u, _, _, h3⟩ := h.complete v hv
  omega

/-- a soft clause with its clause on the solver: violated and not relaxed only if the assumption literal is true -/
theorem clause_fals {u : Nat → Bool} {y : WSft} (h : clauseVal u y.clause = true) (ha : litVal u y.a = false) : fals u y = false := by
  obtain ⟨l, hl, ht⟩ := clauseVal_iff.1 h
  unfold WSft.clause at hl
  unfold fals
  rcases List.mem_append.1 hl with hl | hl
  · rcases List.mem_append.1 hl with hl | hl
    · rw [clauseVal_iff.2 ⟨l, hl, ht⟩]; rfl
    · rw [clauseVal_iff.2 ⟨l, hl, ht⟩]; simp
  · rw [List.mem_singleton.1 hl, ha] at ht; cases ht

theorem clause_true {u : Nat → Bool} {y : WSft} (h : litVal u y.a = (y.inc || fals u y)) : clauseVal u y.clause = true := by
  unfold WSft.clause
  rw [clauseVal_iff]
  cases hf : fals u y with
  | true => rw [hf, Bool.or_true] at h; exact ⟨y.a, by simp, h⟩
  | false =>
    unfold fals at hf
    have : clauseVal u y.cl = true ∨ clauseVal u y.vars = true := by
      cases h1 : clauseVal u y.cl <;> cases h2 : clauseVal u y.vars <;> simp_all
    rcases this with hc | hc
    · obtain ⟨l, hl, ht⟩ := clauseVal_iff.1 hc
      exact ⟨l, by simp [hl], ht⟩
    · obtain ⟨l, hl, ht⟩ := clauseVal_iff.1 hc
      exact ⟨l, by simp [hl], ht⟩

theorem WInv.cnt_le {P : Prob} {S : Prop} {n lb : Nat} {hs : List (List Nat)} {soft : List WSft} {G : List Cor} {K : Nat → Knd} (h : WInv P S n hs soft G K lb) {u : Nat → Bool}
    (hu : ∀ c ∈ hs, clauseVal u c = true) : ∀ g ∈ G, cnt u g.lits ≤ 1 := by
  intro g hg
  obtain ⟨e, he, _⟩ := encodeEO_some (h.nodup g hg).2 g.b
  refine encodeEO_sound he fun c hc => hu c (h.eos g hg c ?_)
  unfold Cor.cls
  rw [he]; exact hc

/-- a model under all assumptions costs at most the lower bound -/
theorem WInv.allTrue {P : Prob} {S : Prop} {n lb : Nat} {hs : List (List Nat)} {soft : List WSft} {G : List Cor} {K : Nat → Knd} (h : WInv P S n hs soft G K lb) {u : Nat → Bool}
    (hu : ∀ c ∈ hs, clauseVal u c = true) (hc : ∀ y ∈ soft, y.inc = false → clauseVal u y.clause = true ∧ litVal u y.a = false) : costC u P.soft ≤ lb := by
  have h1 := h.sound u (h.cnt_le hu)
  have h2 : remW u soft = 0 := by
    unfold remW
    refine List.sum_eq_zero_iff_forall_eq_nat.2 ?_
    intro a ha
    obtain ⟨y, hy, rfl⟩ := List.mem_map.1 ha
    unfold rv
    cases hi : y.inc with
    | true => simp
    | false => rw [clause_fals (hc y hy hi).1 (hc y hy hi).2]; simp
  omega

/-- the soft clause of a conflict -/
theorem coreIdxW_of {soft : List WSft} (hn : (soft.map (·.a)).Nodup) {y : WSft} (hy : y ∈ soft) : soft[coreIdxW soft y.a]? = some y := by
  unfold coreIdxW
  cases hf : soft.findIdx? fun z => decide (z.a = y.a) with
  | none =>
    rw [List.findIdx?_eq_none_iff] at hf
    have := hf y hy
    simp at this
  | some i =>
    rw [List.findIdx?_eq_some_iff_getElem] at hf
    obtain ⟨hi, h1, _⟩ := hf
    rw [Option.getD_some, List.getElem?_eq_getElem hi]
    exact congrArg some (eq_of_a hn (List.getElem_mem hi) hy (of_decide_eq_true h1))

end Verif.MaxAlg
