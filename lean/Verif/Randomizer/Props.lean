import Verif.Randomizer.Model
import Verif.Factory.TreeShape
import Verif.Factory.FuncProps
import Mathlib.Tactic.Ring
import Mathlib.Tactic.Tauto
/-!
# The formula randomizer: properties (C64)
-/
namespace Verif.Randomizer
open Verif Verif.Tree Verif.Func
variable {α β γ : Type} [DecidableEq α]

/-! ## specification -/

/-- configurations that can be used: every bound that is drawn from is positive -/
def Usable (g : Cfg α) : Prop := g.vars ≠ [] ∧ 3 ≤ g.maxAnd ∧ 3 ≤ g.maxOr ∧ 2 ≤ g.maxCc ∧ 1 ≤ g.maxPbc ∧ 1 ≤ g.maxCoeff

/-- the weights of all atoms are 0 -/
def NoAtoms (g : Cfg α) : Prop := g.wConst = 0 ∧ g.wPos = 0 ∧ g.wNeg = 0 ∧ g.wPbc = 0 ∧ g.wCc = 0 ∧ g.wAmo = 0 ∧ g.wExo = 0

/-- the configuration allows the comparator (if no comparator has a weight it is an equation) -/
def CmpOk (g : Cfg α) : Cmp → Prop
  | .le => 0 < g.wLe
  | .lt => 0 < g.wLt
  | .ge => 0 < g.wGe
  | .gt => 0 < g.wGt
  | .eq => 0 < g.wEq ∨ (g.wLe = 0 ∧ g.wLt = 0 ∧ g.wGe = 0 ∧ g.wGt = 0)

/-- the configuration allows the literal (negative if no phase has a weight) -/
def PhaseOk (g : Cfg α) (l : Lit α) : Prop := l.var ∈ g.vars ∧ (l.pos = true → 0 < g.wPos) ∧ (l.pos = false → 0 < g.wNeg ∨ g.wPos = 0)

/-- the configuration allows the coefficient (positive if no sign has a weight) -/
def CoeffOk (g : Cfg α) (c : Int) : Prop := c ≠ 0 ∧ c.natAbs ≤ g.maxCoeff ∧ (c < 0 → 0 < g.wCoeffNeg) ∧ (0 < c → 0 < g.wCoeffPos ∨ g.wCoeffNeg = 0)

/-- right-hand sides of cardinality constraints over `n` variables -/
def BoundOk (n : Nat) : Cmp → Int → Prop
  | .lt, b => 1 ≤ b ∧ b ≤ n + 1
  | _, b => 0 ≤ b ∧ b < n

/-- the configuration allows the node in a formula generated by `k` -/
def Allowed (g : Cfg α) (k : Kind) : Fm α → Prop
  | .fls => 0 < g.wConst
  | .tru => 0 < g.wConst
  | .lit l => 0 < g.wPos + g.wNeg ∧ l.var ∈ g.vars
  | .not _ => 0 < g.wNot ∨ k = .not
  | .and fs => (0 < g.wAnd ∨ k = .and) ∧ 2 ≤ fs.length ∧ fs.Nodup
  | .or fs => (0 < g.wOr ∨ k = .or) ∧ 2 ≤ fs.length ∧ fs.Nodup
  | .impl _ _ => 0 < g.wImpl ∨ k = .impl
  | .equiv _ _ => 0 < g.wEquiv ∨ k = .equiv ∨ (NoAtoms g ∧ g.wOr = 0 ∧ g.wAnd = 0 ∧ g.wNot = 0 ∧ g.wImpl = 0)
  | .cc c b xs => (xs ≠ [] ∧ ∀ x ∈ xs, x ∈ g.vars) ∧
    ((xs.Nodup ∧ xs.length ≤ g.maxCc ∧
        ((0 < g.wCc ∧ CmpOk g c ∧ BoundOk xs.length c b) ∨ (0 < g.wAmo ∧ c = .le ∧ b = 1) ∨ ((0 < g.wExo ∨ NoAtoms g) ∧ c = .eq ∧ b = 1))) ∨
      (0 < g.wPbc ∧ xs.length < g.maxPbc ∧ CmpOk g c ∧ 0 ≤ b ∧ b ≤ xs.length))
  | .pbc c b ts => 0 < g.wPbc ∧ ts ≠ [] ∧ ts.length < g.maxPbc ∧ CmpOk g c ∧ (∀ t ∈ ts, PhaseOk g t.2 ∧ CoeffOk g t.1) ∧
    -(ts.map fun t => max 0 (-t.1)).sum ≤ b ∧ b ≤ (ts.map fun t => max 0 t.1).sum

/-! ## depth -/

/-- every path has at most `d` steps -/
def DepthLe (f : Fm α) (d : Nat) : Prop := ∀ n, Path f n → n ≤ d

theorem DepthLe.mono {f : Fm α} {d e : Nat} (h : DepthLe f d) (he : d ≤ e) : DepthLe f e := fun n hn => le_trans (h n hn) he

theorem DepthLe.op {f k : Fm α} {d : Nat} (h : DepthLe f d) (ho : IsOp k f) : 1 ≤ d ∧ DepthLe k (d - 1) :=
  ⟨h 1 (.cons ho (.nil _)), fun n hn => by have := h (n + 1) (.cons ho hn); omega⟩

theorem DepthLe.mk {f : Fm α} {d : Nat} (h : ∀ k, IsOp k f → DepthLe k d) : DepthLe f (d + 1) := by
  intro n hn
  cases hn with
  | nil => omega
  | cons ho hp => have := h _ ho _ hp; omega

theorem DepthLe.atomic {f : Fm α} (h : ∀ k, ¬IsOp k f) (d : Nat) : DepthLe f d := by
  intro n hn
  cases hn with
  | nil => omega
  | cons ho _ => exact absurd ho (h _)

/-- a generated formula -/
def Good (g : Cfg α) (k : Kind) (d : Nat) (f : Fm α) : Prop := DepthLe f d ∧ ∀ s, Sub s f → Allowed g k s

theorem Good.op {g : Cfg α} {k : Kind} {d : Nat} {f s : Fm α} (h : Good g k d f) (ho : IsOp s f) : Good g k (d - 1) s :=
  ⟨(h.1.op ho).2, fun t ht => h.2 t (.step ho ht)⟩

theorem Good.mono {g : Cfg α} {k : Kind} {d e : Nat} {f : Fm α} (h : Good g k d f) (he : d ≤ e) : Good g k e f := ⟨h.1.mono he, h.2⟩

theorem Good.mk {g : Cfg α} {k : Kind} {d : Nat} {f : Fm α} (ha : Allowed g k f) (h : ∀ s, IsOp s f → Good g k d s) : Good g k (d + 1) f :=
  ⟨.mk fun s hs => (h s hs).1, fun s hs => by
    cases hs with
    | refl => exact ha
    | step ho hs => exact (h _ ho).2 s hs⟩

theorem Good.atomic {g : Cfg α} {k : Kind} {f : Fm α} (d : Nat) (ha : Allowed g k f) (h : ∀ s, ¬IsOp s f) : Good g k d f :=
  ⟨.atomic h d, fun s hs => by
    cases hs with
    | refl => exact ha
    | step ho hs => exact absurd ho (h _)⟩

theorem Good.kind {g : Cfg α} {k k' : Kind} {d : Nat} {f : Fm α} (h : Good g k d f) (hk : ∀ s, Allowed g k s → Allowed g k' s) : Good g k' d f :=
  ⟨h.1, fun s hs => hk s (h.2 s hs)⟩

theorem Good.self {g : Cfg α} {k : Kind} {d : Nat} {f : Fm α} (h : Good g k d f) : Allowed g k f := h.2 f (.refl f)

theorem allowed_formula {g : Cfg α} (k : Kind) : ∀ s, Allowed g .formula s → Allowed g k s
  | .fls, h => h
  | .tru, h => h
  | .lit _, h => h
  | .not _, h => .inl (by rcases h with h | h; exact h; cases h)
  | .and _, h => ⟨.inl (by rcases h.1 with h | h; exact h; cases h), h.2⟩
  | .or _, h => ⟨.inl (by rcases h.1 with h | h; exact h; cases h), h.2⟩
  | .impl _ _, h => .inl (by rcases h with h | h; exact h; cases h)
  | .equiv _ _, h => by
    rcases h with h | h | h
    · exact .inl h
    · cases h
    · exact .inr (.inr h)
  | .cc _ _ _, h => h
  | .pbc _ _ _, h => h

theorem Good.toKind {g : Cfg α} {d : Nat} {f : Fm α} (h : Good g .formula d f) (k : Kind) : Good g k d f := h.kind (allowed_formula k)

/-- the weight of a kind allows it -/
def Chosen (g : Cfg α) : Kind → Prop
  | .formula => True
  | .or => 0 < g.wOr
  | .and => 0 < g.wAnd
  | .not => 0 < g.wNot
  | .impl => 0 < g.wImpl
  | .equiv => 0 < g.wEquiv ∨ (NoAtoms g ∧ g.wOr = 0 ∧ g.wAnd = 0 ∧ g.wNot = 0 ∧ g.wImpl = 0)

theorem allowed_chosen {g : Cfg α} {k : Kind} (hk : Chosen g k) : ∀ s, Allowed g k s → Allowed g .formula s
  | .fls, h => h
  | .tru, h => h
  | .lit _, h => h
  | .not _, h => .inl (by rcases h with h | rfl; exact h; exact hk)
  | .and _, h => ⟨.inl (by rcases h.1 with h | rfl; exact h; exact hk), h.2⟩
  | .or _, h => ⟨.inl (by rcases h.1 with h | rfl; exact h; exact hk), h.2⟩
  | .impl _ _, h => .inl (by rcases h with h | rfl; exact h; exact hk)
  | .equiv _ _, h => by
    rcases h with h | rfl | h
    · exact .inl h
    · rcases hk with h | h
      · exact .inl h
      · exact .inr (.inr h)
    · exact .inr (.inr h)
  | .cc _ _ _, h => h
  | .pbc _ _ _, h => h

/-! ## triples -/

/-- results have `P`, and there is no panic if `N` -/
def H (N : Prop) (m : R β) (P : β → Prop) : Prop := ∀ p, match m p with
  | .ok x _ => P x
  | .panic => ¬N
  | .fuel => True

theorem H.ret {N : Prop} {P : β → Prop} {x : β} (h : P x) : H N (ret x) P := fun _ => h
theorem H.fuel {N : Prop} {P : β → Prop} : H N (fun _ => .fuel) P := fun _ => trivial

theorem H.bind {N : Prop} {m : R β} {f : β → R γ} {P : β → Prop} {Q : γ → Prop} (h : H N m P) (hf : ∀ x, P x → H N (f x) Q) : H N (bind m f) Q := by
  intro p
  have hm := h p
  unfold Randomizer.bind
  cases e : m p with
  | ok x q => rw [e] at hm; exact hf x hm q
  | panic => rw [e] at hm; exact hm
  | fuel => trivial

theorem H.mono {N : Prop} {m : R β} {P Q : β → Prop} (h : H N m P) (hq : ∀ x, P x → Q x) : H N m Q := by
  intro p
  have := h p
  cases e : m p with
  | ok x q => rw [e] at this; exact hq x this
  | panic => rw [e] at this; exact this
  | fuel => trivial

theorem H.times {N : Prop} {m : R β} {P : β → Prop} (h : H N m P) : ∀ n, H N (times n m) fun xs => xs.length = n ∧ ∀ x ∈ xs, P x
  | 0 => .ret ⟨rfl, by simp⟩
  | n + 1 => h.bind fun x hx => (H.times h n).bind fun xs hxs => .ret ⟨by simp [hxs.1], by simpa using ⟨hx, hxs.2⟩⟩

theorem H.intn {N : Prop} (e : Env α) {n : Nat} (h : N → 0 < n) : H N (intn e n) (· < n) := by
  intro p
  unfold Randomizer.intn
  by_cases h0 : n = 0
  · rw [if_pos h0]; exact fun hn => by have := h hn; omega
  · rw [if_neg h0]; exact Nat.mod_lt _ (by omega)

theorem H.flt {N : Prop} (e : Env α) : H N (flt e) (· < 2 ^ 53) := fun _ => Nat.mod_lt _ (by norm_num)

/-! ## the choice -/

theorem pick_pos {a total : Nat} : ∀ (ws : List Nat) (acc : Nat), 2 ^ 53 * acc ≤ a * total → ∀ i w, pick a total acc ws = i → ws[i]? = some w → 0 < w
  | [], _, _, _, _, _, h => by simp at h
  | v :: ws, acc, hacc, i, w, hi, hw => by
    unfold pick at hi
    split at hi
    · rename_i hlt
      subst hi
      simp only [List.getElem?_cons_zero, Option.some.injEq] at hw
      subst hw
      by_contra hc
      have : v = 0 := by omega
      subst this
      omega
    · rename_i hlt
      subst hi
      exact pick_pos (a := a) (total := total) ws (acc + v) (by omega) _ w rfl (by simpa using hw)

theorem pick_default {a total : Nat} : ∀ (ws : List Nat) (acc : Nat), 2 ^ 53 * acc ≤ a * total → ws.length ≤ pick a total acc ws → 2 ^ 53 * (acc + ws.sum) ≤ a * total
  | [], _, h, _ => by simpa using h
  | v :: ws, acc, hacc, hi => by
    unfold pick at hi
    split at hi
    · simp at hi
    · rename_i hlt
      have := pick_default (a := a) (total := total) ws (acc + v) (by omega) (by simpa using hi)
      rw [List.sum_cons, ← add_assoc]; exact this

/-- in the default case the last weight is positive, or all are 0 -/
theorem pick_last {a w : Nat} {ws : List Nat} (ha : a < 2 ^ 53) (h : ws.length ≤ pick a (ws.sum + w) 0 ws) : 0 < w ∨ ws.sum = 0 := by
  have := pick_default ws 0 (by simp) h
  by_contra hc
  push Not at hc
  have hw : w = 0 := by omega
  subst hw
  have : a * ws.sum < 2 ^ 53 * ws.sum := Nat.mul_lt_mul_of_pos_right ha (by omega)
  simp only [zero_add, add_zero] at *
  omega

/-! ## atoms -/

variable {e : Env α} {g : Cfg α} {cons : Bool}

theorem H.constant {k : Kind} {d : Nat} (h : 0 < g.wConst) : H (Usable g) (constant e) (Good g k d) :=
  (H.intn e fun _ => by omega).bind fun n _ => .ret (by
    unfold tConst
    split
    · exact .atomic d h (fun s hs => by cases hs)
    · exact .atomic d h (fun s hs => by cases hs))

theorem H.variable' : H (Usable g) (variable' e g) (· ∈ g.vars) :=
  (H.intn e fun h => List.length_pos_iff.2 h.1).bind fun i hi => by
    rw [List.getElem?_eq_getElem hi]
    exact .ret (List.getElem_mem hi)

theorem H.literal : H (Usable g) (literal e g) (PhaseOk g) :=
  H.variable'.bind fun _ hx => (H.flt e).bind fun a ha => .ret (by
    refine ⟨hx, fun h => ?_, fun h => ?_⟩
    · simp only [decide_eq_true_eq] at h
      by_contra h0
      obtain h0 : g.wPos = 0 := by omega
      rw [h0] at h; omega
    · simp only [decide_eq_false_iff_not] at h
      by_contra h0
      obtain ⟨h1, h2⟩ : g.wNeg = 0 ∧ 0 < g.wPos := by omega
      rw [h1, Nat.add_zero] at h
      exact h (Nat.mul_lt_mul_of_pos_right ha h2))

theorem H.lit {k : Kind} {d : Nat} (h : 0 < g.wPos + g.wNeg) : H (Usable g) (Randomizer.bind (Randomizer.literal e g) fun l => Randomizer.ret (.lit l)) (Good g k d) :=
  H.literal.bind fun l hl => .ret (.atomic d (show Allowed g k (.lit l) from ⟨h, hl.1⟩) (fun s hs => by cases hs))

/-- operands of a cardinality constraint -/
def CcVarsOk (g : Cfg α) (xs : List α) : Prop := (xs ≠ [] ∧ ∀ x ∈ xs, x ∈ g.vars) ∧ xs.Nodup ∧ xs.length ≤ g.maxCc

theorem H.ccVariables (ho : ∀ p l, (e.order p l).Perm l) : H (Usable g) (ccVariables e g) (CcVarsOk g) :=
  (H.intn e fun h => by have := h.2.2.2.1; omega).bind fun n hn => (H.variable'.times (n + 2)).bind fun xs hxs => fun p => by
    have h1 := (ho p xs.dedup).length_eq
    refine ⟨⟨fun h => ?_, fun x hx => hxs.2 x (List.mem_dedup.1 ((ho p _).mem_iff.1 hx))⟩, (ho p _).nodup_iff.2 (List.nodup_dedup _), ?_⟩
    · rw [h] at h1
      have h2 : xs.dedup = [] := List.length_eq_zero_iff.1 h1.symm
      rw [List.dedup_eq_nil] at h2
      rw [h2] at hxs
      simp at hxs
    · have := (List.dedup_sublist xs).length_le
      have := hxs.1
      omega

theorem H.cSort {N : Prop} : H N (cSort e g) (CmpOk g) := (H.flt e).bind fun a ha => .ret (by
  have key := fun i w (h : pick a (g.wLe + g.wLt + g.wGe + g.wGt + g.wEq) 0 [g.wLe, g.wLt, g.wGe, g.wGt] = i) hw => pick_pos _ 0 (by simp) i w h hw
  split
  · rename_i h; exact key _ _ h rfl
  · rename_i h; exact key _ _ h rfl
  · rename_i h; exact key _ _ h rfl
  · rename_i h; exact key _ _ h rfl
  · rename_i h0 h1 h2 h3
    have hl := pick_last (a := a) (w := g.wEq) (ws := [g.wLe, g.wLt, g.wGe, g.wGt]) ha (by
      simp only [List.sum_cons, List.sum_nil, List.length_cons, List.length_nil, Nat.add_zero]
      rw [show g.wLe + (g.wLt + (g.wGe + g.wGt)) + g.wEq = g.wLe + g.wLt + g.wGe + g.wGt + g.wEq by omega]
      have h0 : ¬_ := h0
      have h1 : ¬_ := h1
      have h2 : ¬_ := h2
      have h3 : ¬_ := h3
      omega)
    rcases hl with hl | hl
    · exact .inl hl
    · simp only [List.sum_cons, List.sum_nil] at hl
      exact .inr ⟨by omega, by omega, by omega, by omega⟩)

theorem good_cc {k : Kind} {d : Nat} {c : Cmp} {b : Int} {xs : List α} (hx : xs ≠ []) (ha : Allowed g k (.cc c b xs)) : Good g k d (tCC c b xs) := by
  unfold tCC
  rw [if_neg (by simpa using hx)]
  exact .atomic d ha (fun s hs => by cases hs)

theorem H.cc {k : Kind} {d : Nat} (ho : ∀ p l, (e.order p l).Perm l) (hw : 0 < g.wCc) : ∀ F, H (Usable g) (cc e g F) (Good g k d)
  | 0 => .fuel
  | F + 1 => (H.ccVariables ho).bind fun xs hxs => H.cSort.bind fun s hs => by
    dsimp only
    split
    · exact H.cc ho hw F
    · rename_i hb
      refine (H.intn e fun _ => by omega).bind fun n hn => ?_
      split
      · exact H.cc ho hw F
      · refine .ret (good_cc hxs.1.1 ⟨hxs.1, .inl ⟨hxs.2.1, hxs.2.2, .inl ⟨hw, hs, ?_⟩⟩⟩)
        have hl := List.length_pos_iff.2 hxs.1.1
        cases s <;> simp only [BoundOk, ccBound, ccOffset] at * <;> omega

theorem H.amo {k : Kind} {d : Nat} (ho : ∀ p l, (e.order p l).Perm l) (hw : 0 < g.wAmo) : H (Usable g) (amo e g) (Good g k d) :=
  (H.ccVariables ho).bind fun _ hxs => .ret (good_cc hxs.1.1 ⟨hxs.1, .inl ⟨hxs.2.1, hxs.2.2, .inr (.inl ⟨hw, rfl, rfl⟩)⟩⟩)

theorem H.exo {k : Kind} {d : Nat} (ho : ∀ p l, (e.order p l).Perm l) (hw : 0 < g.wExo ∨ NoAtoms g) : H (Usable g) (exo e g) (Good g k d) :=
  (H.ccVariables ho).bind fun _ hxs => .ret (good_cc hxs.1.1 ⟨hxs.1, .inl ⟨hxs.2.1, hxs.2.2, .inr (.inr ⟨hw, rfl, rfl⟩)⟩⟩)

theorem H.term : H (Usable g) (term e g) (fun t => PhaseOk g t.2 ∧ CoeffOk g t.1) :=
  H.literal.bind fun _ hl => (H.intn e fun h => h.2.2.2.2.2).bind fun c hc => (H.flt e).bind fun a ha => .ret (by
    refine ⟨hl, ?_⟩
    dsimp only
    unfold CoeffOk
    split
    · rename_i h
      refine ⟨by omega, by omega, fun _ => ?_, fun _ => by omega⟩
      by_contra h0
      obtain h0 : g.wCoeffNeg = 0 := by omega
      rw [h0] at h; omega
    · rename_i h
      refine ⟨by omega, by omega, fun _ => by omega, fun _ => ?_⟩
      by_contra h0
      obtain ⟨h1, h2⟩ : g.wCoeffPos = 0 ∧ 0 < g.wCoeffNeg := by omega
      rw [h1, Nat.zero_add] at h
      exact h (Nat.mul_lt_mul_of_pos_right ha h2))

theorem sum_toNat (ts : List (Int × Lit α)) (f : Int → Int) : (((ts.map fun t => (f t.1).toNat).sum : Nat) : Int) = (ts.map fun t => max 0 (f t.1)).sum := by
  induction ts with
  | nil => rfl
  | cons t ts ih => simp only [List.map_cons, List.sum_cons, Nat.cast_add, ih]; omega

theorem sum_ones {ts : List (Int × Lit α)} (h : ∀ t ∈ ts, t.1 = 1) : (ts.map fun t => max 0 t.1).sum = ts.length := by
  induction ts with
  | nil => rfl
  | cons t ts ih => simp only [List.map_cons, List.sum_cons, ih fun t ht => h t (by simp [ht]), h t (by simp), List.length_cons]; omega

theorem H.pbc {k : Kind} {d : Nat} (hw : 0 < g.wPbc) : ∀ F, H (Usable g) (pbc e g F) (Good g k d)
  | 0 => .fuel
  | F + 1 => (H.intn e fun h => h.2.2.2.2.1).bind fun n hn => (H.term.times n).bind fun ts hts => H.cSort.bind fun s hs =>
    (H.intn e fun _ => by omega).bind fun b hb => by
      dsimp only
      split
      · exact H.pbc hw F
      · rename_i hc
        refine .ret ?_
        have s1 := sum_toNat ts fun z => -z
        have s2 := sum_toNat ts fun z => z
        have hlen : ts.length < g.maxPbc := by rw [hts.1]; exact hn
        unfold tPBC at hc ⊢
        split at hc
        · exfalso; apply hc; unfold tConst; split <;> rfl
        · rename_i he
          rw [if_neg he]
          have hne : ts ≠ [] := by simpa using he
          split
          · rename_i hcc
            refine .atomic d (show Allowed g k (.cc _ _ _) from ⟨⟨by simpa using hne, ?_⟩, .inr ⟨hw, by simpa using hlen, hs, ?_, ?_⟩⟩) (fun s hs => by cases hs)
            · intro x hx
              obtain ⟨t, ht, rfl⟩ := List.mem_map.1 hx
              exact (hts.2 t ht).1.1
            · unfold tIsCC at hcc
              rw [Bool.and_eq_true] at hcc
              have := hcc.2
              cases s <;> simp only [decide_eq_true_eq] at this <;> omega
            · unfold tIsCC at hcc
              simp only [Bool.and_eq_true, List.all_eq_true, decide_eq_true_eq] at hcc
              have s3 := sum_ones hcc.1.2
              rw [List.length_map]
              omega
          · exact .atomic d (show Allowed g k (.pbc _ _ _) from ⟨hw, hne, hlen, hs, hts.2, by omega, by omega⟩) (fun s hs => by cases hs)

theorem H.atom {k : Kind} {d : Nat} (ho : ∀ p l, (e.order p l).Perm l) (F : Nat) : H (Usable g) (atom e g F) (Good g k d) :=
  (H.flt e).bind fun a ha => by
    have key := fun i w (h : pick a (g.wConst + (g.wPos + g.wNeg) + g.wPbc + g.wCc + g.wAmo + g.wExo) 0 [g.wConst, g.wPos + g.wNeg, g.wPbc, g.wCc, g.wAmo] = i) hw =>
      pick_pos _ 0 (by simp) i w h hw
    split
    · rename_i h; exact H.constant (key _ _ h rfl)
    · rename_i h; exact H.lit (key _ _ h rfl)
    · rename_i h; exact H.pbc (key _ _ h rfl) F
    · rename_i h; exact H.cc ho (key _ _ h rfl) F
    · rename_i h; exact H.amo ho (key _ _ h rfl)
    · rename_i h0 h1 h2 h3 h4
      refine H.exo ho ?_
      have hl := pick_last (a := a) (w := g.wExo) (ws := [g.wConst, g.wPos + g.wNeg, g.wPbc, g.wCc, g.wAmo]) ha (by
        simp only [List.sum_cons, List.sum_nil, List.length_cons, List.length_nil, Nat.add_zero]
        rw [show g.wConst + (g.wPos + g.wNeg + (g.wPbc + (g.wCc + g.wAmo))) + g.wExo = g.wConst + (g.wPos + g.wNeg) + g.wPbc + g.wCc + g.wAmo + g.wExo by omega]
        have h0 : ¬_ := h0
        have h1 : ¬_ := h1
        have h2 : ¬_ := h2
        have h3 : ¬_ := h3
        have h4 : ¬_ := h4
        omega)
      rcases hl with hl | hl
      · exact .inl hl
      · simp only [List.sum_cons, List.sum_nil] at hl
        by_cases hx : 0 < g.wExo
        · exact .inl hx
        · exact .inr ⟨by omega, by omega, by omega, by omega, by omega, by omega, by omega⟩

/-! ## operators -/

theorem good_not {d : Nat} {f : Fm α} (h : Good g .formula d f) : Good g .not (d + 1) (tNot f) := by
  have hf : ∀ f : Fm α, Good g .formula d f → Good g .not (d + 1) (.not f) := fun f h => .mk (.inr rfl) fun s hs => by
    cases hs; exact h.toKind _
  cases f with
  | fls => exact .atomic _ (show Allowed g .not .tru from h.self) (fun s hs => by cases hs)
  | tru => exact .atomic _ (show Allowed g .not .fls from h.self) (fun s hs => by cases hs)
  | lit l => exact .atomic _ (show Allowed g .not (.lit l.neg) from h.self) (fun s hs => by cases hs)
  | not f => exact ((h.op (.not f)).toKind _).mono (by omega)
  | and fs => exact hf _ h
  | or fs => exact hf _ h
  | impl a b => exact hf _ h
  | equiv a b => exact hf _ h
  | cc c b xs => exact hf _ h
  | pbc c b ts => exact hf _ h

/-- a negation of another sort than `Not` that is compound is the operand of a negation -/
theorem tNot_sort {k : Kind} {f : Fm α} (hk : k ≠ .not) (h : hasSort k (tNot f) = true) : f = .not (tNot f) := by
  cases f <;> cases k <;> simp_all [tNot, hasSort]

theorem good_tNot {k : Kind} {d : Nat} {f : Fm α} (hk : k ≠ .not) (hf : Good g .formula d f) (h : hasSort k (tNot f) = true) : Good g k (d + 1) (tNot f) := by
  have e := tNot_sort hk h
  have ho : IsOp (tNot f) f := by conv => rhs; rw [e]
                                  exact .not _
  exact ((hf.op ho).toKind k).mono (by omega)

theorem good_impl {d : Nat} {l r : Fm α} (hl : Good g .formula d l) (hr : Good g .formula d r) (h : hasSort .impl (tImpl cons l r) = true) :
    Good g .impl (d + 1) (tImpl cons l r) := by
  unfold tImpl at h ⊢
  split at h
  · simp [hasSort] at h
  rename_i h1
  rw [if_neg h1]
  split at h
  · rename_i h2; rw [if_pos h2]; exact (hr.toKind _).mono (by omega)
  rename_i h2
  rw [if_neg h2]
  split at h
  · rename_i h3; rw [if_pos h3]; exact good_tNot (by simp) hl h
  rename_i h3
  rw [if_neg h3]
  split at h
  · simp [hasSort] at h
  rename_i h4
  rw [if_neg h4]
  exact .mk (.inr rfl) fun s hs => by
    cases hs with
    | implL => exact hl.toKind _
    | implR => exact hr.toKind _

theorem good_equiv {d : Nat} {l r : Fm α} (hl : Good g .formula d l) (hr : Good g .formula d r) (h : hasSort .equiv (tEquiv cons l r) = true) :
    Good g .equiv (d + 1) (tEquiv cons l r) := by
  unfold tEquiv at h ⊢
  split at h
  · rename_i h1; rw [if_pos h1]; exact (hr.toKind _).mono (by omega)
  rename_i h1
  rw [if_neg h1]
  split at h
  · rename_i h2; rw [if_pos h2]; exact (hl.toKind _).mono (by omega)
  rename_i h2
  rw [if_neg h2]
  split at h
  · rename_i h3; rw [if_pos h3]; exact good_tNot (by simp) hr h
  rename_i h3
  rw [if_neg h3]
  split at h
  · rename_i h3; rw [if_pos h3]; exact good_tNot (by simp) hl h
  rename_i h4
  rw [if_neg h4]
  split at h
  · simp [hasSort] at h
  rename_i h5
  rw [if_neg h5]
  split at h
  · simp [hasSort] at h
  rename_i h6
  rw [if_neg h6]
  exact .mk (.inr (.inl rfl)) fun s hs => by
    cases hs with
    | equivL => exact hl.toKind _
    | equivR => exact hr.toKind _

theorem good_and {d : Nat} {fs : List (Fm α)} (hf : ∀ f ∈ fs, Good g .formula d f) (h : hasSort .and (tAnd cons fs) = true) : Good g .and (d + 1) (tAnd cons fs) := by
  have hop : ∀ s, AndOp fs s → Good g .and d s := by
    rintro s ⟨_, _, ⟨hs, _⟩ | ⟨gs, h1, h2⟩⟩
    · exact (hf s hs).toKind _
    · exact (((hf _ h1).op (.and h2)).toKind _).mono (by omega)
  revert h
  refine tAnd_elim (P := fun f => hasSort .and f = true → Good g .and (d + 1) f) ?_ ?_ (fun s hs _ => (hop s hs).mono (by omega)) (fun a h1 h2 h3 _ => ?_)
  · intro h; simp [hasSort] at h
  · intro h; simp [hasSort] at h
  · exact .mk ⟨.inr rfl, h1, h2⟩ fun s hs => by
      cases hs with
      | and hs => exact hop s (h3 s hs)

theorem good_or {d : Nat} {fs : List (Fm α)} (hf : ∀ f ∈ fs, Good g .formula d f) (h : hasSort .or (tOr cons fs) = true) : Good g .or (d + 1) (tOr cons fs) := by
  have hop : ∀ s, OrOp fs s → Good g .or d s := by
    rintro s ⟨_, _, ⟨hs, _⟩ | ⟨gs, h1, h2⟩⟩
    · exact (hf s hs).toKind _
    · exact (((hf _ h1).op (.or h2)).toKind _).mono (by omega)
  revert h
  refine tOr_elim (P := fun f => hasSort .or f = true → Good g .or (d + 1) f) ?_ ?_ (fun s hs _ => (hop s hs).mono (by omega)) (fun a h1 h2 h3 _ => ?_)
  · intro h; simp [hasSort] at h
  · intro h; simp [hasSort] at h
  · exact .mk ⟨.inr rfl, h1, h2⟩ fun s hs => by
      cases hs with
      | or hs => exact hop s (h3 s hs)

/-- the sort that is generated -/
def SortOk (k : Kind) (d : Nat) (f : Fm α) : Prop := k ≠ .formula → 1 ≤ d → (k = .not → 2 ≤ d) → hasSort k f = true

theorem sum_default {a : Nat} (ha : a < 2 ^ 53)
    (h : 10 ≤ pick a (g.wConst + (g.wPos + g.wNeg) + g.wPbc + g.wCc + g.wAmo + g.wExo + g.wOr + g.wAnd + g.wNot + g.wImpl + g.wEquiv) 0
        [g.wConst, g.wPos + g.wNeg, g.wPbc, g.wCc, g.wAmo, g.wExo, g.wOr, g.wAnd, g.wNot, g.wImpl]) : Chosen g .equiv := by
  have hl := pick_last (a := a) (w := g.wEquiv) (ws := [g.wConst, g.wPos + g.wNeg, g.wPbc, g.wCc, g.wAmo, g.wExo, g.wOr, g.wAnd, g.wNot, g.wImpl]) ha (by
    simp only [List.sum_cons, List.sum_nil, List.length_cons, List.length_nil, Nat.add_zero]
    rw [show g.wConst + (g.wPos + g.wNeg + (g.wPbc + (g.wCc + (g.wAmo + (g.wExo + (g.wOr + (g.wAnd + (g.wNot + g.wImpl)))))))) + g.wEquiv
      = g.wConst + (g.wPos + g.wNeg) + g.wPbc + g.wCc + g.wAmo + g.wExo + g.wOr + g.wAnd + g.wNot + g.wImpl + g.wEquiv by omega]
    exact h)
  rcases hl with hl | hl
  · exact .inl hl
  · simp only [List.sum_cons, List.sum_nil] at hl
    exact .inr ⟨⟨by omega, by omega, by omega, by omega, by omega, by omega, by omega⟩, by omega, by omega, by omega, by omega⟩

theorem H.gen (ho : ∀ p l, (e.order p l).Perm l) : ∀ (F : Nat) (k : Kind) (d : Nat), H (Usable g) (gen e g cons F k d) (fun f => Good g k d f ∧ SortOk k d f)
  | 0, _, _ => .fuel
  | F + 1, k, 0 => by
    have : Randomizer.gen e g cons (F + 1) k 0 = Randomizer.atom e g F := by cases k <;> rfl
    rw [this]
    exact (H.atom ho F).mono fun f hf => ⟨hf, fun _ h => by omega⟩
  | F + 1, .not, d + 1 => (H.gen ho F .formula d).bind fun f hf => by
    split
    · exact H.gen ho F .not (d + 1)
    · rename_i hc
      refine .ret ⟨good_not hf.1, fun _ _ h2 => ?_⟩
      have h2 := h2 rfl
      by_contra h3
      exact hc ⟨h2, by simpa using h3⟩
  | F + 1, .impl, d + 1 => (H.gen ho F .formula d).bind fun l hl => (H.gen ho F .formula d).bind fun r hr => by
    split
    · exact H.gen ho F .impl (d + 1)
    · rename_i hc
      have hc : hasSort .impl (tImpl cons l r) = true := by simpa using hc
      exact .ret ⟨good_impl hl.1 hr.1 hc, fun _ _ _ => hc⟩
  | F + 1, .equiv, d + 1 => (H.gen ho F .formula d).bind fun l hl => (H.gen ho F .formula d).bind fun r hr => by
    split
    · exact H.gen ho F .equiv (d + 1)
    · rename_i hc
      have hc : hasSort .equiv (tEquiv cons l r) = true := by simpa using hc
      exact .ret ⟨good_equiv hl.1 hr.1 hc, fun _ _ _ => hc⟩
  | F + 1, .and, d + 1 => (H.intn e fun h => by have := h.2.1; omega).bind fun n _ => ((H.gen ho F .formula d).times (2 + n)).bind fun fs hfs => by
    split
    · exact H.gen ho F .and (d + 1)
    · rename_i hc
      have hc : hasSort .and (tAnd cons fs) = true := by simpa using hc
      exact .ret ⟨good_and (fun f hf => (hfs.2 f hf).1) hc, fun _ _ _ => hc⟩
  | F + 1, .or, d + 1 => (H.intn e fun h => by have := h.2.2.1; omega).bind fun n _ => ((H.gen ho F .formula d).times (2 + n)).bind fun fs hfs => by
    split
    · exact H.gen ho F .or (d + 1)
    · rename_i hc
      have hc : hasSort .or (tOr cons fs) = true := by simpa using hc
      exact .ret ⟨good_or (fun f hf => (hfs.2 f hf).1) hc, fun _ _ _ => hc⟩
  | F + 1, .formula, d + 1 => (H.flt e).bind fun a ha => by
    have key := fun i w (h : pick a (g.wConst + (g.wPos + g.wNeg) + g.wPbc + g.wCc + g.wAmo + g.wExo + g.wOr + g.wAnd + g.wNot + g.wImpl + g.wEquiv) 0
        [g.wConst, g.wPos + g.wNeg, g.wPbc, g.wCc, g.wAmo, g.wExo, g.wOr, g.wAnd, g.wNot, g.wImpl] = i) hw =>
      pick_pos _ 0 (by simp) i w h hw
    have at' : ∀ {m : R (Fm α)}, H (Usable g) m (Good g .formula (d + 1)) → H (Usable g) m fun f => Good g .formula (d + 1) f ∧ SortOk .formula (d + 1) f :=
      fun h => h.mono fun f hf => ⟨hf, fun h => absurd rfl h⟩
    have go' : ∀ k, Chosen g k → H (Usable g) (Randomizer.gen e g cons F k (d + 1)) fun f => Good g .formula (d + 1) f ∧ SortOk .formula (d + 1) f :=
      fun k hk => at' ((H.gen ho F k (d + 1)).mono fun f hf => hf.1.kind (allowed_chosen hk))
    split
    · rename_i h; exact at' (H.constant (key _ _ h rfl))
    · rename_i h; exact at' (H.lit (key _ _ h rfl))
    · rename_i h; exact at' (H.pbc (key _ _ h rfl) F)
    · rename_i h; exact at' (H.cc ho (key _ _ h rfl) F)
    · rename_i h; exact at' (H.amo ho (key _ _ h rfl))
    · rename_i h; exact at' (H.exo ho (.inl (key _ _ h rfl)))
    · rename_i h; exact go' .or (key _ _ h rfl)
    · rename_i h; exact go' .and (key _ _ h rfl)
    · rename_i h; exact go' .not (key _ _ h rfl)
    · rename_i h; exact go' .impl (key _ _ h rfl)
    · rename_i h0 h1 h2 h3 h4 h5 h6 h7 h8 h9
      refine go' .equiv (sum_default ha ?_)
      have h0 : ¬_ := h0
      have h1 : ¬_ := h1
      have h2 : ¬_ := h2
      have h3 : ¬_ := h3
      have h4 : ¬_ := h4
      have h5 : ¬_ := h5
      have h6 : ¬_ := h6
      have h7 : ¬_ := h7
      have h8 : ¬_ := h8
      have h9 : ¬_ := h9
      omega

/-! ## the order of maps -/

theorem bind_congr {m : R β} {P : β → Prop} {f f' : β → R γ} (h : H True m P) (hf : ∀ x, P x → f x = f' x) : bind m f = bind m f' := by
  funext p
  unfold Randomizer.bind
  have := h p
  cases e : m p with
  | ok x q => rw [e] at this; dsimp only; rw [hf x this]
  | panic => rfl
  | fuel => rfl

theorem pbc_order (o o' : Nat → List α → List α) (dr : Nat → Nat) : ∀ F, pbc ⟨dr, o⟩ g F = pbc ⟨dr, o'⟩ g F
  | 0 => rfl
  | F + 1 => by
    unfold pbc
    rw [pbc_order o o' dr F]
    rfl

/-- no cardinality constraints are drawn -/
def NoCc (g : Cfg α) : Prop := g.wCc = 0 ∧ g.wAmo = 0 ∧ g.wExo = 0 ∧ 0 < g.wConst + g.wPos + g.wNeg + g.wPbc

theorem atom_order (hg : NoCc g) (o o' : Nat → List α → List α) (dr : Nat → Nat) (F : Nat) : atom ⟨dr, o⟩ g F = atom ⟨dr, o'⟩ g F := by
  obtain ⟨h1, h2, h3, h4⟩ := hg
  unfold atom
  refine bind_congr (H.flt _) fun a ha => ?_
  have key := fun i w (h : pick a (g.wConst + (g.wPos + g.wNeg) + g.wPbc + g.wCc + g.wAmo + g.wExo) 0 [g.wConst, g.wPos + g.wNeg, g.wPbc, g.wCc, g.wAmo] = i) hw =>
    pick_pos _ 0 (by simp) i w h hw
  split
  · rfl
  · rfl
  · exact pbc_order o o' dr F
  · rename_i h; have := key _ _ h rfl; omega
  · rename_i h; have := key _ _ h rfl; omega
  · rename_i h0 h1' h2' h3' h4'
    exfalso
    have hl := pick_last (a := a) (w := g.wExo) (ws := [g.wConst, g.wPos + g.wNeg, g.wPbc, g.wCc, g.wAmo]) ha (by
      simp only [List.sum_cons, List.sum_nil, List.length_cons, List.length_nil, Nat.add_zero]
      rw [show g.wConst + (g.wPos + g.wNeg + (g.wPbc + (g.wCc + g.wAmo))) + g.wExo = g.wConst + (g.wPos + g.wNeg) + g.wPbc + g.wCc + g.wAmo + g.wExo by omega]
      have h0 : ¬_ := h0
      have h1 : ¬_ := h1'
      have h2 : ¬_ := h2'
      have h3 : ¬_ := h3'
      have h4 : ¬_ := h4'
      omega)
    simp only [List.sum_cons, List.sum_nil] at hl
    omega

theorem gen_order (hg : NoCc g) (o o' : Nat → List α → List α) (dr : Nat → Nat) : ∀ (F : Nat) (k : Kind) (d : Nat), gen ⟨dr, o⟩ g cons F k d = gen ⟨dr, o'⟩ g cons F k d
  | 0, _, _ => rfl
  | F + 1, k, 0 => by
    have : ∀ e : Env α, Randomizer.gen e g cons (F + 1) k 0 = Randomizer.atom e g F := fun e => by cases k <;> rfl
    rw [this, this]
    exact atom_order hg o o' dr F
  | F + 1, .not, d + 1 => by unfold gen; rw [gen_order hg o o' dr F .formula d, gen_order hg o o' dr F .not (d + 1)]
  | F + 1, .impl, d + 1 => by unfold gen; rw [gen_order hg o o' dr F .formula d, gen_order hg o o' dr F .impl (d + 1)]
  | F + 1, .equiv, d + 1 => by unfold gen; rw [gen_order hg o o' dr F .formula d, gen_order hg o o' dr F .equiv (d + 1)]
  | F + 1, .and, d + 1 => by unfold gen; rw [gen_order hg o o' dr F .formula d, gen_order hg o o' dr F .and (d + 1)]; rfl
  | F + 1, .or, d + 1 => by unfold gen; rw [gen_order hg o o' dr F .formula d, gen_order hg o o' dr F .or (d + 1)]; rfl
  | F + 1, .formula, d + 1 => by
    unfold gen
    refine bind_congr (H.flt _) fun a ha => ?_
    have key := fun i w (h : pick a (g.wConst + (g.wPos + g.wNeg) + g.wPbc + g.wCc + g.wAmo + g.wExo + g.wOr + g.wAnd + g.wNot + g.wImpl + g.wEquiv) 0
        [g.wConst, g.wPos + g.wNeg, g.wPbc, g.wCc, g.wAmo, g.wExo, g.wOr, g.wAnd, g.wNot, g.wImpl] = i) hw =>
      pick_pos _ 0 (by simp) i w h hw
    obtain ⟨h1, h2, h3, h4⟩ := id hg
    split
    · rfl
    · rfl
    · exact pbc_order o o' dr F
    · rename_i h; have := key _ _ h rfl; omega
    · rename_i h; have := key _ _ h rfl; omega
    · rename_i h; have := key _ _ h rfl; omega
    · exact gen_order hg o o' dr F .or (d + 1)
    · exact gen_order hg o o' dr F .and (d + 1)
    · exact gen_order hg o o' dr F .not (d + 1)
    · exact gen_order hg o o' dr F .impl (d + 1)
    · exact gen_order hg o o' dr F .equiv (d + 1)

/-! ## the properties -/

theorem gen_good (ho : ∀ p l, (e.order p l).Perm l) {F : Nat} {k : Kind} {d p q : Nat} {f : Fm α} (h : gen e g cons F k d p = .ok f q) : Good g k d f ∧ SortOk k d f := by
  have := H.gen (g := g) (cons := cons) ho F k d p
  rw [h] at this
  exact this

/-- **C64**: the depth of a generated formula, as `Depth` computes it, is at most the given one -/
theorem C64_depth (ho : ∀ p l, (e.order p l).Perm l) {F : Nat} {k : Kind} {d p q : Nat} {f : Fm α} (h : gen e g cons F k d p = .ok f q)
    {c : Cache α Nat} (hc : Reach (memo depthNode) c) : (memo depthNode c f).1 ≤ d := by
  have hg := (gen_good ho h).1
  refine hg.1 _ (C41_depth hc f ?_).1
  intro s hs
  have := hg.2 s hs
  constructor
  · rintro rfl
    have := this.2.1
    simp at this
  · rintro rfl
    have := this.2.1
    simp at this

/-- **C64**: `And`, `Or`, `Impl`, `Equiv` return their sort if the depth is not 0, `Not` if it is at least 2 -/
theorem C64_sort (ho : ∀ p l, (e.order p l).Perm l) {F d p q : Nat} {f : Fm α} :
    (gen e g cons F .and (d + 1) p = .ok f q → ∃ fs, f = .and fs) ∧ (gen e g cons F .or (d + 1) p = .ok f q → ∃ fs, f = .or fs) ∧
    (gen e g cons F .impl (d + 1) p = .ok f q → ∃ a b, f = .impl a b) ∧ (gen e g cons F .equiv (d + 1) p = .ok f q → ∃ a b, f = .equiv a b) ∧
    (gen e g cons F .not (d + 2) p = .ok f q → ∃ a, f = .not a) := by
  refine ⟨fun h => ?_, fun h => ?_, fun h => ?_, fun h => ?_, fun h => ?_⟩
  all_goals
    have := (gen_good ho h).2 (by simp) (by omega) (by simp)
    cases f <;> simp [hasSort] at this ⊢

/-- **C64**: every node of a generated formula is allowed by the configuration: the variables are the configured ones, the weight of the sort is positive, operators have
at least two operands without repetition, constraints have operands, comparators and signs of positive weight, and numbers of operands, coefficients and right-hand sides
within their bounds -/
theorem C64_nodes (ho : ∀ p l, (e.order p l).Perm l) {F : Nat} {k : Kind} {d p q : Nat} {f : Fm α} (h : gen e g cons F k d p = .ok f q) :
    ∀ s, Sub s f → Allowed g k s := (gen_good ho h).1.2

/-- **C64**: a drawn literal has a configured variable and a phase of positive weight (negative if no phase has a weight) -/
theorem C64_literal {p q : Nat} {l : Lit α} (h : literal e g p = .ok l q) : PhaseOk g l := by
  have := H.literal (e := e) (g := g) p
  rw [h] at this
  exact this

/-- **C64**: the same for a set of constraints, which has the requested number of formulas -/
theorem C64_set (ho : ∀ p l, (e.order p l).Perm l) {F n d p q : Nat} {fs : List (Fm α)} (h : constraintSet e g cons F n d p = .ok fs q) :
    fs.length = n ∧ ∀ f ∈ fs, (∀ m, Path f m → m ≤ d) ∧ ∀ s, Sub s f → Allowed g .formula s := by
  have := (H.gen (g := g) (cons := cons) ho F .formula d).times n p
  rw [show times n (gen e g cons F .formula d) p = constraintSet e g cons F n d p from rfl, h] at this
  exact ⟨this.1, fun f hf => (this.2 f hf).1⟩

/-- **C64**: no panic with a usable configuration -/
theorem C64_nopanic (ho : ∀ p l, (e.order p l).Perm l) (hg : Usable g) (F : Nat) (k : Kind) (d p : Nat) : gen e g cons F k d p ≠ .panic := by
  intro h
  have := H.gen (g := g) (cons := cons) ho F k d p
  rw [h] at this
  exact this hg

/-- **C64**: the formulas depend on the seed only, if no cardinality constraints are drawn -/
theorem C64_seed (hg : NoCc g) (o o' : Nat → List α → List α) (dr : Nat → Nat) (F : Nat) (k : Kind) (d p : Nat) :
    gen ⟨dr, o⟩ g cons F k d p = gen ⟨dr, o'⟩ g cons F k d p := by rw [gen_order hg o o' dr F k d]

/-- **C64** fails: at most two operands cannot be configured, `And` and `Or` panic -/
theorem C64_panic_false (F d p : Nat) : (g.maxAnd ≤ 2 → gen e g cons (F + 1) .and (d + 1) p = .panic) ∧ (g.maxOr ≤ 2 → gen e g cons (F + 1) .or (d + 1) p = .panic) := by
  constructor
  · intro h
    unfold gen bind intn
    rw [if_pos (by omega)]
  · intro h
    unfold gen bind intn
    rw [if_pos (by omega)]

/-- **C64** fails: `Not` with depth at least 2 never returns, whatever is drawn, if only constants and literals have weights (`Not` with depth 1 returns at once) -/
theorem C64_not_false (ho : ∀ p l, (e.order p l).Perm l) (hg : g.wOr = 0 ∧ g.wAnd = 0 ∧ g.wNot = 0 ∧ g.wImpl = 0 ∧ g.wEquiv = 0 ∧ g.wPbc = 0 ∧ g.wCc = 0 ∧ g.wAmo = 0 ∧ g.wExo = 0)
    (hl : 0 < g.wConst + g.wPos + g.wNeg) (d : Nat) : ∀ (F p q : Nat) (f : Fm α), gen e g cons F .not (d + 2) p ≠ .ok f q
  | 0, _, _, _ => by simp [gen]
  | F + 1, p, q, f => by
    unfold gen bind
    have hgood := H.gen (g := g) (cons := cons) ho F .formula (d + 1) p
    cases hf : gen e g cons F .formula (d + 1) p with
    | panic => simp
    | fuel => simp
    | ok x r =>
      rw [hf] at hgood
      have hx := hgood.1.self
      have : hasSort .not (tNot x) = false := by
        obtain ⟨h1, h2, h3, h4, h5, h6, h7, h8, h9⟩ := hg
        cases x with
        | fls => rfl
        | tru => rfl
        | lit l => rfl
        | not x => rcases hx with h | h; omega; cases h
        | and x => rcases hx.1 with h | h; omega; cases h
        | or x => rcases hx.1 with h | h; omega; cases h
        | impl a b => rcases hx with h | h; omega; cases h
        | equiv a b =>
          rcases hx with h | h | h
          · omega
          · cases h
          · obtain ⟨⟨k1, k2, k3, _⟩, _⟩ := h; omega
        | cc c b xs =>
          rcases hx.2 with ⟨_, _, h | h | ⟨h | h, _⟩⟩ | h
          · have := h.1; omega
          · have := h.1; omega
          · omega
          · obtain ⟨k1, k2, k3, _⟩ := h; omega
          · have := h.1; omega
        | pbc c b ts => have := hx.1; omega
      dsimp only
      rw [if_pos ⟨by omega, this⟩]
      exact C64_not_false ho hg hl d F r q f

theorem H.pbc_none (hg : g.maxPbc ≤ 1) : ∀ F, H (Usable g) (Randomizer.pbc e g F) (fun _ => False)
  | 0 => .fuel
  | F + 1 => (H.intn e fun h => h.2.2.2.2.1).bind fun n hn => by
    have h0 : n = 0 := by omega
    subst h0
    refine (H.times (P := fun _ => True) (fun p => ?_) 0).bind fun ts hts => H.cSort.bind fun s _ => (H.intn e fun _ => by omega).bind fun b _ => ?_
    · have := H.term (e := e) (g := g) p
      cases h : Randomizer.term e g p with
      | ok x q => trivial
      | panic => rw [h] at this; exact this
      | fuel => trivial
    · have : ts = [] := List.length_eq_zero_iff.1 hts.1
      subst this
      dsimp only
      rw [if_pos (show isConst (tPBC s _ ([] : List (Int × Lit α))) = true from by
        show isConst (tConst _) = true
        unfold tConst; split <;> rfl)]
      exact H.pbc_none hg F

/-- **C64** fails: with at most one operand `PBC` never returns -/
theorem C64_pbc_false (hg : g.maxPbc ≤ 1) (F p q : Nat) (f : Fm α) : pbc e g F p ≠ .ok f q := by
  intro h
  have := H.pbc_none (e := e) hg F p
  rw [h] at this
  exact this

/-! ## examples -/

def exCfg : Cfg Nat where
  vars := [0, 1, 2, 3]
  wConst := 0
  wPos := 1
  wNeg := 0
  wOr := 0
  wAnd := 1
  wNot := 0
  wImpl := 0
  wEquiv := 0
  maxAnd := 3
  maxOr := 3
  wPbc := 0
  wCoeffPos := 1
  wCoeffNeg := 1
  wLe := 1
  wLt := 1
  wGe := 1
  wGt := 1
  wEq := 1
  maxPbc := 5
  maxCoeff := 10
  wCc := 0
  wAmo := 0
  wExo := 0
  maxCc := 5
def exEnv : Env Nat := ⟨fun p => [0, 2 ^ 52, 0, 0, 0, 0, 0, 1, 0, 2 ^ 52, 0, 0, 2, 0, 0, 3, 0].getD p 0, fun _ l => l⟩
def v (n : Nat) : Fm Nat := .lit ⟨n, true⟩

/-- **C64** fails: with at most 3 operands (of which 3 is never drawn) there are conjunctions with 4 operands -/
theorem C64_ops_false : ∃ (e : Env Nat) (g : Cfg Nat) (fs : List (Fm Nat)) (q : Nat), Usable g ∧ (∀ p l, (e.order p l).Perm l) ∧
    gen e g false 5 .and 2 0 = .ok (.and fs) q ∧ g.maxAnd < fs.length :=
  ⟨exEnv, exCfg, [v 0, v 1, v 2, v 3], 17, by simp [Usable, exCfg], fun _ l => List.Perm.refl l, by decide +kernel, by decide⟩

/-- **C64** fails: a sort of weight 0 is generated if the weights of all atoms are 0 -/
theorem C64_weight_false : ∃ (e : Env Nat) (g : Cfg Nat) (xs : List Nat) (q : Nat), Usable g ∧ (∀ p l, (e.order p l).Perm l) ∧ g.wCc = 0 ∧ g.wAmo = 0 ∧ g.wExo = 0 ∧ 0 < g.wAnd ∧
    gen e g false 1 .formula 0 0 = .ok (.cc .eq 1 xs) q :=
  ⟨exEnv, { exCfg with wPos := 0 }, [0], 4, by simp [Usable, exCfg], fun _ l => List.Perm.refl l, rfl, rfl, rfl, by decide, by decide +kernel⟩

/-- **C64** fails: two runs with the same seed differ by the order of a map if cardinality constraints are drawn -/
theorem C64_seed_false : ∃ (dr : Nat → Nat) (o o' : Nat → List Nat → List Nat) (g : Cfg Nat), Usable g ∧ (∀ p l, (o p l).Perm l) ∧ (∀ p l, (o' p l).Perm l) ∧
    ∃ f f' q q', gen ⟨dr, o⟩ g false 1 .formula 0 0 = .ok f q ∧ gen ⟨dr, o'⟩ g false 1 .formula 0 0 = .ok f' q' ∧ f ≠ f' :=
  ⟨fun p => p, fun _ l => l, fun _ l => l.reverse, { exCfg with wPos := 0, wExo := 1 }, by simp [Usable, exCfg], fun _ l => List.Perm.refl l, fun _ l => List.reverse_perm l,
    .cc .eq 1 [2, 3, 0], .cc .eq 1 [0, 3, 2], 5, 5, by decide +kernel, by decide +kernel, by decide⟩

example : Usable exCfg ∧ NoCc exCfg ∧ ∀ p l, (exEnv.order p l).Perm l := ⟨by simp [Usable, exCfg], by simp [NoCc, exCfg], fun _ l => List.Perm.refl l⟩
example : gen exEnv exCfg false 5 .and 2 0 = .ok (.and [v 0, v 1, v 2, v 3]) 17 := by decide +kernel

end Verif.Randomizer
