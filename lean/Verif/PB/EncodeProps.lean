import Verif.PB.BinaryMerge
import Verif.PB.Adder
import Verif.PB.NormalizeProps
import Verif.Encoding.CCProps
/-!
# The encodings of pseudo-Boolean constraints are exact (C16)
-/
namespace Verif.PB
open Verif Verif.Enc Verif.Tree
variable {α : Type} [DecidableEq α]
set_option linter.unusedSectionVars false

/-! ### the encoder below the normalization -/

theorem negs_exact {k : Nat} {ts : WTerms α} : Exact k k (ts.map (·.2)) (ts.map fun t => [t.2.neg]) (fun v => ∀ t ∈ ts, t.2.eval v = false) := by
  refine .direct ?_ fun v => ?_
  · intro c hc l hl
    obtain ⟨t, ht, rfl⟩ := List.mem_map.1 hc
    rw [List.mem_singleton] at hl
    subst hl
    exact ⟨t.2, List.mem_map.2 ⟨t, ht, rfl⟩, rfl⟩
  · rw [sat_map]
    constructor
    · intro h t ht
      simpa [Lit.eval_neg] using h t ht
    · intro h t ht
      exact ⟨_, List.mem_singleton.2 rfl, by rw [Lit.eval_neg, h t ht]; rfl⟩

theorem encodePBC_exact {cfg : PbCfg} {k rhs : Nat} {ts : WTerms α} (hw : ∀ t ∈ ts, 0 < t.1) (ho : ∀ t ∈ ts, Old k t.2) (hr : cfg.enc = .adder → rhs < 2 ^ 31) :
    Exact k (encodePBC [] cfg k rhs ts).2 (ts.map (·.2)) (encodePBC [] cfg k rhs ts).1 (fun v => wsum v ts ≤ rhs) := by
  unfold encodePBC
  split
  · subst rhs
    refine negs_exact.congr (fun l hl => ⟨l, hl, rfl⟩) fun v => ⟨fun h => ?_, fun h t ht => ?_⟩
    · rw [wsum_zero h]
    · rw [Bool.eq_false_iff]
      intro e
      have := wsum_ge ht e
      have := hw t ht
      omega
  · dsimp only
    have hol : ∀ l ∈ ts.map (·.2), Old k l := by intro l hl; obtain ⟨t, ht, rfl⟩ := List.mem_map.1 hl; exact ho t ht
    have hsub : ∀ p : Nat × Lit (EV α) → Bool, ∀ l ∈ (ts.filter p).map (·.2), ∃ m ∈ ts.map (·.2), m.var = l.var := by
      intro p l hl
      obtain ⟨t, ht, rfl⟩ := List.mem_map.1 hl
      exact ⟨t.2, List.mem_map.2 ⟨t, List.mem_of_mem_filter ht, rfl⟩, rfl⟩
    have hC : ∀ v : EV α → Bool, wsum v ts ≤ rhs ↔ (∀ t ∈ ts.filter (fun t => !decide (t.1 ≤ rhs)), t.2.eval v = false) ∧ wsum v (ts.filter fun t => decide (t.1 ≤ rhs)) ≤ rhs := by
      intro v
      have hs := wsum_split v (fun t => decide (t.1 ≤ rhs)) ts
      constructor
      · intro h
        refine ⟨fun t ht => ?_, by omega⟩
        rw [Bool.eq_false_iff]
        intro e
        have h1 := wsum_ge (List.mem_of_mem_filter ht) e
        have h2 := (List.mem_filter.1 ht).2
        simp at h2; omega
      · rintro ⟨h1, h2⟩
        have := wsum_zero h1
        omega
    split
    · rename_i hl
      have hone : ∀ v : EV α → Bool, wsum v (ts.filter fun t => decide (t.1 ≤ rhs)) ≤ rhs := by
        intro v
        have hm : ∀ t ∈ ts.filter (fun t => decide (t.1 ≤ rhs)), t.1 ≤ rhs := fun t ht => by simpa using (List.mem_filter.1 ht).2
        generalize ts.filter (fun t => decide (t.1 ≤ rhs)) = us at hl hm
        match us, hl, hm with
        | [], _, _ => simp [wsum]
        | [t], _, hm => simp only [wsum]; have := hm t (by simp); split <;> omega
      refine negs_exact.congr (hsub _) fun v => ?_
      rw [hC v]
      exact ⟨fun h => ⟨h, hone v⟩, fun h => h.1⟩
    · have hw' : ∀ t ∈ ts.filter (fun t => decide (t.1 ≤ rhs)), 0 < t.1 ∧ t.1 ≤ rhs := fun t ht =>
        ⟨hw t (List.mem_of_mem_filter ht), by simpa using (List.mem_filter.1 ht).2⟩
      have ho' : ∀ t ∈ ts.filter (fun t => decide (t.1 ≤ rhs)), Old k t.2 := fun t ht => ho t (List.mem_of_mem_filter ht)
      refine Exact.seq negs_exact (C2 := fun v => wsum v (ts.filter fun t => decide (t.1 ≤ rhs)) ≤ rhs) ?_ hol (hsub _) (hsub (fun t => decide (t.1 ≤ rhs))) hC ?_
      · cases he : cfg.enc <;> dsimp only
        · exact swc_exact hw' ho'
        · exact encodeBM_exact hw' ho'
        · exact adder_exact (hr he) (fun t ht => (hw' t ht).2) ho'
        · exact swc_exact hw' ho'
      · intro v w h h1
        rw [← wsum_congr (v := v) (w := w)]
        · exact h1
        · intro t ht
          exact h t.2 (List.mem_map.2 ⟨t, List.mem_of_mem_filter ht, rfl⟩)

/-! ### `EncodePBCInResult` -/

/-- a term of the constraint as a term of the encoder -/
def wterm (t : Int × Lit α) : Nat × Lit (EV α) := (t.1.toNat, ⟨.usr t.2.var, t.2.pos⟩)

/-- pbc_encoding.go:42-47, the cases of a normalized formula which is not a conjunction; `PBCOps` of a cardinality constraint gives coefficients one
(formula/factory.go:862-889) -/
def encodeNormal (z : Clause α) (cfg : PbCfg) (k : Nat) : Fm α → Option (List (Clause α) × Nat)
  | .tru => some ([], k)
  | .fls => some ([[]], k)
  | .cc .le c xs => some (encodePBC z cfg k c.toNat (xs.map fun x => wterm (1, ⟨x, true⟩)))
  | .pbc .le c ts => some (encodePBC z cfg k c.toNat (ts.map wterm))
  | _ => none

/-- pbc_encoding.go:31-38 `EncodePBCInResult` for an operand of the conjunction into which an equation is normalized: a cardinality constraint is
given to `EncodeCCInResult` without the configuration, so that the one of the factory, `ccfg`, is used; a pseudo-Boolean constraint is normalized
again.  `Normalize` does not return a conjunction for it since it is no equation. -/
def encodeOp (cons : Bool) (ord : Terms α → Terms α) (z : Clause α) (cfg : PbCfg) (ccfg : CCCfg) (fuel k : Nat) : Fm α → Option (List (Clause α) × Nat)
  | .cc c rhs xs => encodeCC z ccfg fuel k c rhs.toNat (usrs xs)
  | .pbc c rhs ts => (normalize cons ord 2 c rhs ts).bind (encodeNormal z cfg k)
  | _ => none

def encodeOps (cons : Bool) (ord : Terms α → Terms α) (z : Clause α) (cfg : PbCfg) (ccfg : CCCfg) (fuel : Nat) : Nat → List (Fm α) → Option (List (Clause α) × Nat)
  | k, [] => some ([], k)
  | k, f :: fs => (encodeOp cons ord z cfg ccfg fuel k f).bind fun q => (encodeOps cons ord z cfg ccfg fuel q.2 fs).map fun r => (q.1 ++ r.1, r.2)

def encodeNormalTop (cons : Bool) (ord : Terms α → Terms α) (z : Clause α) (cfg : PbCfg) (ccfg : CCCfg) (fuel k : Nat) : Fm α → Option (List (Clause α) × Nat)
  | .and ops => encodeOps cons ord z cfg ccfg fuel k ops
  | f => encodeNormal z cfg k f

/-- pbc_encoding.go:31-55 `EncodePBCInResult` for a pseudo-Boolean constraint, with the configuration `cfg` and the one of the factory `ccfg` (for
cardinality constraints).  `none`: an at-most-one encoding which does not return. -/
def encodePB (cons : Bool) (ord : Terms α → Terms α) (z : Clause α) (cfg : PbCfg) (ccfg : CCCfg) (fuel k : Nat) (c : Cmp) (rhs : Int) (ts : Terms α) : Option (List (Clause α) × Nat) :=
  (normalize cons ord 2 c rhs ts).bind (encodeNormalTop cons ord z cfg ccfg fuel k)

theorem linSum_wterm (w : EV α → Bool) (ts : Terms α) (h : ∀ t ∈ ts, 0 < t.1) : linSum (fun a => w (.usr a)) ts = ((wsum w (ts.map wterm) : Nat) : Int) := by
  induction ts with
  | nil => rfl
  | cons t ts ih =>
    obtain ⟨a, l⟩ := t
    have h1 : 0 < a := h (a, l) (by simp)
    have h2 : (wterm (a, l)).2.eval w = l.eval (fun a => w (.usr a)) := by simp only [wterm, Lit.eval]; rfl
    rw [List.map_cons, wsum, linSum, ih fun t ht => h t (by simp [ht]), h2, wterm]
    push_cast
    congr 1
    split
    · omega
    · rfl

/-- what is proved of a call of the encoder -/
def EncOK (V : List α) (k : Nat) (r : List (Clause α) × Nat) (C : (α → Bool) → Prop) : Prop := k ≤ r.2 ∧ Encodes V k r.2 r.1 C

theorem EncOK.of_exact {V : List α} {ls : List (Lit (EV α))} {k : Nat} {r : List (Clause α) × Nat} {C : (EV α → Bool) → Prop} {D : (α → Bool) → Prop} (E : Exact k r.2 ls r.1 C)
    (hV : ∀ l ∈ ls, ∃ a ∈ V, l.var = .usr a) (h : ∀ w, C w ↔ D (fun a => w (.usr a))) : EncOK V k r D :=
  ⟨E.le, Enc.Exact.encodes (E.congr (ls' := usrs V) (C' := C) (fun l hl => by
    obtain ⟨a, ha, e⟩ := hV l hl
    exact ⟨⟨.usr a, true⟩, List.mem_map.2 ⟨a, ha, rfl⟩, e.symm⟩) (fun _ => Iff.rfl)) h⟩

theorem EncOK.seq {V : List α} {k : Nat} {q r : List (Clause α) × Nat} {C D : (α → Bool) → Prop} (h1 : EncOK V k q C) (h2 : EncOK V q.2 r D) :
    EncOK V k (q.1 ++ r.1, r.2) (fun v => C v ∧ D v) := by
  refine ⟨Nat.le_trans h1.1 h2.1, fun w hw => ?_, fun v g hv => ?_, fun c hc l hl => ?_⟩
  · rw [sat_append] at hw
    exact ⟨h1.2.sound w hw.1, h2.2.sound w hw.2⟩
  · obtain ⟨w1, a1, a2, a3⟩ := h1.2.complete v g hv.1
    obtain ⟨w2, b1, b2, b3⟩ := h2.2.complete v (fun n => w1 (.aux n)) hv.2
    have l1 := h1.1
    have l2 := h2.1
    refine ⟨w2, b1, fun n hn => ?_, ?_⟩
    · dsimp only at hn
      rw [b2 n (by omega), a2 n (by omega)]
    · rw [sat_append]
      refine ⟨(sat_congr fun c hc l hl => ?_).1 a3, b3⟩
      rcases h1.2.vars c hc l hl with ⟨a, _, e⟩ | ⟨n, e, hn⟩
      · rw [e, a1, b1]
      · rw [e, b2 n (by omega)]
  · have l1 := h1.1
    have l2 := h2.1
    rcases List.mem_append.1 hc with hc | hc
    · rcases h1.2.vars c hc l hl with h | ⟨n, e, hn⟩
      · exact .inl h
      · exact .inr ⟨n, e, by dsimp only; omega⟩
    · rcases h2.2.vars c hc l hl with h | ⟨n, e, hn⟩
      · exact .inl h
      · exact .inr ⟨n, e, by dsimp only; omega⟩

theorem encodeTerms_ok {cfg : PbCfg} {V : List α} {k : Nat} {c : Int} {ts : Terms α} (hc : 0 ≤ c) (hw : ∀ t ∈ ts, 0 < t.1) (hV : ∀ t ∈ ts, t.2.var ∈ V)
    (hr : cfg.enc = .adder → c < 2 ^ 31) : EncOK V k (encodePBC [] cfg k c.toNat (ts.map wterm)) (fun v => linSum v ts ≤ c) := by
  refine .of_exact (encodePBC_exact ?_ ?_ fun h => by have := hr h; omega) ?_ fun w => ?_
  · intro t ht
    obtain ⟨s, hs, rfl⟩ := List.mem_map.1 ht
    have := hw s hs
    simp only [wterm]; omega
  · intro t ht
    obtain ⟨s, hs, rfl⟩ := List.mem_map.1 ht
    exact old_usr
  · intro l hl
    obtain ⟨t, ht, rfl⟩ := List.mem_map.1 hl
    obtain ⟨s, hs, rfl⟩ := List.mem_map.1 ht
    exact ⟨s.2.var, hV s hs, rfl⟩
  · rw [linSum_wterm w ts hw]; omega

/-- the two forms of a normalized constraint which is not constant -/
theorem tPBC_cases {c : Int} {ts : Terms α} (hne : ts ≠ []) : (tPBC .le c ts = .pbc .le c ts) ∨
    (tPBC .le c ts = .cc .le c (ts.map (·.2.var)) ∧ ts = (ts.map (·.2.var)).map fun x => (1, ⟨x, true⟩)) := by
  unfold tPBC
  rw [if_neg (by simpa using hne)]
  split
  · rename_i h
    refine .inr ⟨rfl, ?_⟩
    simp only [tIsCC, Bool.and_eq_true, List.all_eq_true, decide_eq_true_iff] at h
    rw [List.map_map]
    conv => lhs; rw [← List.map_id ts]
    apply List.map_congr_left
    intro t ht
    obtain ⟨a, ⟨x, p⟩⟩ := t
    have h1 := h.1.1 _ ht
    have h2 := h.1.2 _ ht
    simp only at h1 h2
    subst h1; subst h2; rfl
  · exact .inl rfl

theorem encodeNormal_ok {cfg : PbCfg} {V : List α} {B : Int} {k : Nat} {f : Fm α} (hf : Normal B V f) (hr : cfg.enc = .adder → B ≤ 2 ^ 31) :
    ∃ r, encodeNormal [] cfg k f = some r ∧ EncOK V k r (fun v => f.eval v = true) := by
  rcases hf with rfl | rfl | ⟨c, ts, rfl, h2, h3, h4, h5, h6, h7, h8, h9⟩
  · exact ⟨_, rfl, .of_exact (ls := []) (C := fun _ => False) (false_exact (by simp)) (by simp) (by simp [Fm.eval])⟩
  · exact ⟨_, rfl, .of_exact (ls := []) (C := fun _ => True) (none_exact (by simp)) (by simp) (by simp [Fm.eval])⟩
  · have E := encodeTerms_ok (cfg := cfg) (k := k) h3 h4 h9 (fun h => by have := hr h; omega)
    have he : (fun v => (tPBC .le c ts).eval v = true) = (fun v => linSum v ts ≤ c) := by
      funext v; simp [eval_tPBC, Cmp.holds]
    rw [he]
    rcases tPBC_cases (c := c) h2 with e | ⟨e, e'⟩
    · rw [e]; exact ⟨_, rfl, E⟩
    · rw [e]
      refine ⟨_, rfl, ?_⟩
      have : ((ts.map (·.2.var)).map fun x => wterm (1, ⟨x, true⟩)) = ts.map wterm := by
        conv => rhs; rw [e']
        rw [List.map_map (g := wterm)]; rfl
      rw [this]; exact E

theorem encodeCC_le {cfg : CCCfg} {fuel k c : Nat} {xs : List α} {r : List (Clause α) × Nat} (h : encodeCC [] cfg fuel k .le c (usrs xs) = some r) : k ≤ r.2 := by
  simp only [encodeCC] at h
  split at h
  · exact (amo_exact usrs_old h).le
  · cases h; exact (amk_exact usrs_old).le

/-- an operand of the conjunction into which an equation is normalized -/
theorem encodeOp_ok {cons : Bool} {ord : Terms α → Terms α} (ho : ∀ l, (ord l).Perm l) {cfg : PbCfg} {ccfg : CCCfg} {fuel : Nat} {V : List α} {B : Int} {k : Nat} {f : Fm α}
    {r : List (Clause α) × Nat} (hf : Normal B V f) (hr : cfg.enc = .adder → B ≤ 2 ^ 31) (h : encodeOp cons ord [] cfg ccfg fuel k f = some r) : EncOK V k r (fun v => f.eval v = true) := by
  rcases hf with rfl | rfl | ⟨c, ts, rfl, h2, h3, h4, h5, h6, h7, h8, h9⟩
  · simp [encodeOp] at h
  · simp [encodeOp] at h
  · rcases tPBC_cases (c := c) h2 with e | ⟨e, e'⟩
    · rw [e] at h ⊢
      simp only [encodeOp] at h
      obtain ⟨f, hf, hn, he⟩ := C15_normalize_ineq cons ho 0 .le (by decide) c ts
      rw [hf, Option.bind_some] at h
      have hB : absSum ts ≤ B := by
        refine Int.le_trans (Int.le_of_eq ?_) h8
        unfold absSum
        congr 1
        exact List.map_congr_left fun t ht => by have := h4 t ht; omega
      obtain ⟨r', hr', E⟩ := encodeNormal_ok (cfg := cfg) (k := k) (hn.mono (V' := V) hB (fun x hx => by obtain ⟨t, ht, rfl⟩ := List.mem_map.1 hx; exact h9 t ht)) hr
      rw [hr'] at h; cases h
      simpa only [he] using E
    · rw [e] at h ⊢
      simp only [encodeOp] at h
      have hk := encodeCC_le h
      have E := C13_encodeCC_partial h
      rw [Int.toNat_of_nonneg h3] at E
      exact ⟨hk, E.sound, E.complete, fun d hd l hl => (E.vars d hd l hl).imp (fun ⟨a, ha, e⟩ => ⟨a, by obtain ⟨t, ht, rfl⟩ := List.mem_map.1 ha; exact h9 t ht, e⟩) id⟩

theorem encodeOps_ok {cons : Bool} {ord : Terms α → Terms α} (ho : ∀ l, (ord l).Perm l) {cfg : PbCfg} {ccfg : CCCfg} {fuel : Nat} {V : List α} {B : Int} (hr : cfg.enc = .adder → B ≤ 2 ^ 31) :
    ∀ (fs : List (Fm α)) (k : Nat) (r : List (Clause α) × Nat), (∀ f ∈ fs, Normal B V f) → encodeOps cons ord [] cfg ccfg fuel k fs = some r →
      EncOK V k r (fun v => ∀ f ∈ fs, f.eval v = true)
  | [], k, r, _, h => by
    simp only [encodeOps] at h; cases h
    exact .of_exact (ls := []) (C := fun _ => True) (none_exact (by simp)) (by simp) (by simp)
  | f :: fs, k, r, hf, h => by
    simp only [encodeOps] at h
    obtain ⟨q, hq, h⟩ := Option.bind_eq_some_iff.1 h
    obtain ⟨s, hs, rfl⟩ := Option.map_eq_some_iff.1 h
    have := (encodeOp_ok ho (hf f (by simp)) hr hq).seq (encodeOps_ok ho hr fs q.2 s (fun g hg => hf g (by simp [hg])) hs)
    simpa using this

theorem tAnd_two {cons : Bool} {B : Int} {V : List α} {a b : Fm α} (ha : Normal B V a) (hb : Normal B V b) :
    Normal B V (tAnd cons [a, b]) ∨ tAnd cons [a, b] = .and [a, b] := by
  have atom : ∀ {f : Fm α}, Normal B V f → f = .fls ∨ f = .tru ∨ ((∀ (acc : List (Fm α)), tStepAnd cons acc f = if cons = false ∧ Fm.not f ∈ acc then none else if f ∈ acc then some acc else some (acc ++ [f]))
      ∧ ∀ g, f ≠ .not g) := by
    intro f hf
    rcases hf with h | h | ⟨c, ts, rfl, h2, h3, h4, h5, h6, h7, h8, h9⟩
    · exact .inl h
    · exact .inr (.inl h)
    · refine .inr (.inr ?_)
      rcases tPBC_cases (c := c) h2 with e | ⟨e, e'⟩ <;> rw [e] <;> simp [tStepAnd, tAddAnd, tNot]
  rcases atom ha with rfl | rfl | ⟨h1, n1⟩
  · left; simp [tAnd, foldOpt, tStepAnd, tAddAnd, Normal]
  · rcases atom hb with rfl | rfl | ⟨h2, n2⟩
    · left; simp [tAnd, foldOpt, tStepAnd, tAddAnd, Normal]
    · left; simp [tAnd, foldOpt, tStepAnd, tAddAnd, Normal]
    · left
      have h3 : tStepAnd cons [] (Fm.tru : Fm α) = some [] := rfl
      simpa [tAnd, foldOpt, h3, h2] using hb
  · rcases atom hb with rfl | rfl | ⟨h2, n2⟩
    · left; simp [tAnd, foldOpt, h1]; simp [tStepAnd, tAddAnd, Normal]
    · left; simp [tAnd, foldOpt, h1]; simpa [tStepAnd, tAddAnd] using ha
    · have hne : Fm.not b ≠ a := fun e => n1 _ e.symm
      by_cases e : b = a
      · left; subst e; simpa [tAnd, foldOpt, h1, hne] using ha
      · right; simp [tAnd, foldOpt, h1, h2, hne, e]

theorem encodeTop_ok {cons : Bool} {ord : Terms α → Terms α} (ho : ∀ l, (ord l).Perm l) {cfg : PbCfg} {ccfg : CCCfg} {fuel : Nat} {V : List α} {B : Int} {k : Nat} {f : Fm α}
    {r : List (Clause α) × Nat} (hf : NormalTop cons B V f) (hr : cfg.enc = .adder → B ≤ 2 ^ 31) (h : encodeNormalTop cons ord [] cfg ccfg fuel k f = some r) :
    EncOK V k r (fun v => f.eval v = true) := by
  have single : Normal B V f → EncOK V k r (fun v => f.eval v = true) := fun hn => by
    have h' : encodeNormal [] cfg k f = some r := by
      rcases hn with rfl | rfl | ⟨c, ts, rfl, h2, h3⟩
      · exact h
      · exact h
      · rcases tPBC_cases (c := c) h2 with e | ⟨e, e'⟩ <;> rw [e] at h ⊢ <;> exact h
    obtain ⟨r', hr', E⟩ := encodeNormal_ok (cfg := cfg) (k := k) hn hr
    rw [hr'] at h'; cases h'; exact E
  rcases hf with hn | ⟨a, b, rfl, ha, hb⟩
  · exact single hn
  · rcases tAnd_two (cons := cons) ha hb with hn | e
    · exact single hn
    · rw [e] at h ⊢
      have := encodeOps_ok (V := V) ho hr [a, b] k r (by simp [ha, hb]) h
      simpa [Fm.eval, Fm.evalAll] using this

/-! ### C16 -/

/-- C16, with everything the configuration can choose except two restrictions: the clauses generated for a pseudo-Boolean constraint encode exactly the
constraint as it is evaluated (C06), with fresh auxiliary variables only.  The clauses may be added as formulas; for the solver as a target see
`C13_solver_false`.
Missing: equations in which a zero coefficient precedes a nonzero one, for which the statement is false (`C16_eq_false`); constraints with
coefficients whose sum exceeds `2^31` for the adder networks, for which it is false as well (`C16_adder_false`). -/
theorem C16_encodePBC_partial {cons : Bool} {ord : Terms α → Terms α} (ho : ∀ l, (ord l).Perm l) {cfg : PbCfg} {ccfg : CCCfg} {fuel k : Nat} {c : Cmp} {rhs : Int} {ts : Terms α}
    {r : List (Clause α) × Nat} (hz : c = .eq → ZerosLast ts) (hr : cfg.enc = .adder → absSum ts ≤ 2 ^ 31) (h : encodePB cons ord [] cfg ccfg fuel k c rhs ts = some r) :
    Encodes (ts.map (·.2.var)) k r.2 r.1 (fun v => (Fm.pbc c rhs ts).eval v = true) := by
  obtain ⟨f, hf, hn, he⟩ := C15_normalize_partial cons ho 0 c rhs ts hz
  unfold encodePB at h
  rw [hf, Option.bind_some] at h
  have := (encodeTop_ok ho hn hr h).2
  simpa only [he] using this

/-- C16 for inequalities without the adder networks: the clauses generated encode exactly the constraint; and the encoder always returns -/
theorem C16_encodePBC_ineq {cons : Bool} {ord : Terms α → Terms α} (ho : ∀ l, (ord l).Perm l) {cfg : PbCfg} {ccfg : CCCfg} {fuel k : Nat} {c : Cmp} {rhs : Int} {ts : Terms α}
    (hc : c ≠ .eq) (hr : cfg.enc ≠ .adder) :
    ∃ r, encodePB cons ord [] cfg ccfg fuel k c rhs ts = some r ∧ Encodes (ts.map (·.2.var)) k r.2 r.1 (fun v => (Fm.pbc c rhs ts).eval v = true) := by
  obtain ⟨f, hf, hn, he⟩ := C15_normalize_ineq cons ho 0 c hc rhs ts
  obtain ⟨r, h1, h2⟩ := encodeNormal_ok (cfg := cfg) (k := k) hn (fun h => absurd h hr)
  have h3 : encodePB cons ord [] cfg ccfg fuel k c rhs ts = some r := by
    unfold encodePB
    rw [hf, Option.bind_some]
    rcases hn with rfl | rfl | ⟨c, ts, rfl, h2, h3⟩
    · exact h1
    · exact h1
    · rcases tPBC_cases (c := c) h2 with e | ⟨e, e'⟩ <;> rw [e] at h1 ⊢ <;> exact h1
  exact ⟨r, h3, C16_encodePBC_partial ho (fun h => absurd h hc) (fun h => absurd h hr) h3⟩

/-- C16 (negative): the clauses for `0·a + 2·b + 3·c = 2` are unsatisfiable, although the constraint is not -/
theorem C16_eq_false : ∃ (cfg : PbCfg) (ccfg : CCCfg) (r : List (Clause Nat) × Nat),
    encodePB true id [] cfg ccfg 9 0 .eq 2 [(0, ⟨0, true⟩), (2, ⟨1, true⟩), (3, ⟨2, true⟩)] = some r ∧ (∀ w : EV Nat → Bool, ¬Sat w r.1) ∧
      ∃ v, (Fm.pbc .eq 2 [(0, ⟨0, true⟩), (2, ⟨1, true⟩), (3, ⟨2, true⟩)]).eval v = true := by
  refine ⟨⟨.swc, ⟨true, true, false⟩, fun _ => false⟩, ccOf .best, ([[⟨.usr 2, false⟩], [⟨.usr 2, true⟩]], 0), by decide +kernel, fun w h => ?_, fun x => x == 1, by decide +kernel⟩
  simp only [sat_cons, List.mem_singleton, exists_eq_left, Lit.eval] at h
  simp_all

/-- C16 (negative): for `2^31·a + (2^31-1)·b ≤ 2^31` the adder networks generate no clause -/
theorem C16_adder_false : ∃ (cfg : PbCfg) (ccfg : CCCfg) (r : List (Clause Nat) × Nat) (w : EV Nat → Bool),
    encodePB true id [] cfg ccfg 9 0 .le (2 ^ 31) [(2 ^ 31, ⟨0, true⟩), (2 ^ 31 - 1, ⟨1, true⟩)] = some r ∧ Sat w r.1 ∧
      (Fm.pbc .le (2 ^ 31) [(2 ^ 31, ⟨0, true⟩), (2 ^ 31 - 1, ⟨1, true⟩)]).eval (fun a => w (.usr a)) = false := by
  refine ⟨⟨.adder, ⟨true, true, false⟩, fun _ => false⟩, ccOf .best, ([], 0), fun _ => true, ?_, by simp, by decide +kernel⟩
  have h : normalize true (id : Terms Nat → Terms Nat) 2 .le (2 ^ 31) [(2 ^ 31, ⟨0, true⟩), (2 ^ 31 - 1, ⟨1, true⟩)] =
    some (.pbc .le (2 ^ 31) [(2 ^ 31, ⟨0, true⟩), (2 ^ 31 - 1, ⟨1, true⟩)]) := by decide +kernel
  unfold encodePB
  rw [h, Option.bind_some]
  have hl : ldInt 2147483648 = 0 := by decide +kernel
  simp only [encodeNormalTop, encodeNormal]
  have e : ((2 : Int) ^ 31).toNat = 2 ^ 31 := by decide
  have e' : ((2 : Int) ^ 31 - 1).toNat = 2 ^ 31 - 1 := by decide
  rw [e]
  simp [encodePBC, wterm, adder, hl, bits, e']
  rw [adderTree.eq_def]
  simp [numToBits, numBitsHigh, lte]

/-- `2a + 3b - c ≥ 3` with the sequential weight counter and with binary merge, and `a + 2b = 3` -/
example : encodePB true id [] ⟨.swc, ⟨true, true, false⟩, fun _ => false⟩ (ccOf .best) 9 0 .ge 3 [(2, (⟨0, true⟩ : Lit Nat)), (3, ⟨1, true⟩), (-1, ⟨2, true⟩)] =
    some ([[⟨.usr 1, true⟩], [⟨.usr 0, true⟩, al 0], [⟨.usr 0, true⟩, al 1], [(al 0).neg, al 2], [⟨.usr 2, false⟩, al 2], [(al 0).neg, ⟨.usr 2, false⟩, al 3],
      [(al 1).neg, al 3], [(al 1).neg, ⟨.usr 2, false⟩]], 4) := by decide +kernel
example : (encodePB true id [] ⟨.binaryMerge, ⟨true, true, false⟩, fun _ => false⟩ (ccOf .best) 9 0 .ge 3 [(2, (⟨0, true⟩ : Lit Nat)), (3, ⟨1, true⟩), (-1, ⟨2, true⟩)]).isSome = true ∧
    ((Cmp.ge = Cmp.eq) → ZerosLast [(2, (⟨0, true⟩ : Lit Nat)), (3, ⟨1, true⟩), (-1, ⟨2, true⟩)]) := by
  obtain ⟨r, h, _⟩ := C16_encodePBC_ineq (cons := true) (ord := id) (fun l => .refl l) (cfg := ⟨.binaryMerge, ⟨true, true, false⟩, fun _ => false⟩) (ccfg := ccOf .best) (fuel := 9) (k := 0)
    (c := .ge) (rhs := 3) (ts := [(2, (⟨0, true⟩ : Lit Nat)), (3, ⟨1, true⟩), (-1, ⟨2, true⟩)]) (by decide) (by decide)
  rw [h]; simp
example : encodePB true id [] ⟨.adder, ⟨true, true, false⟩, fun _ => false⟩ (ccOf .best) 9 0 .eq 3 [(1, (⟨0, true⟩ : Lit Nat)), (2, ⟨1, true⟩)] =
    some ([[⟨.usr 0, true⟩], [⟨.usr 1, true⟩]], 0) ∧ ZerosLast [(1, (⟨0, true⟩ : Lit Nat)), (2, ⟨1, true⟩)] ∧ absSum [(1, (⟨0, true⟩ : Lit Nat)), (2, ⟨1, true⟩)] ≤ 2 ^ 31 :=
  ⟨by decide +kernel, ⟨_, [], (List.append_nil _).symm, by decide, by simp⟩, by decide⟩

end Verif.PB
