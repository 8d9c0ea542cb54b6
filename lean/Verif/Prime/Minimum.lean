import Verif.Prime.Props
import Verif.NormalForm.Props
/-
C37: `Minimum` returns an implicant, which need not be prime.
-/
namespace Verif.Prime
open Verif Verif.Tree Verif.Opt Verif.Transform Verif.Spec
set_option linter.unusedSectionVars false
set_option linter.unusedSimpArgs false
variable {α : Type} [DecidableEq α]

theorem nodup_eraseDups {A : Type} [DecidableEq A] : ∀ (n : Nat) (l : List A), l.length ≤ n → l.eraseDups.Nodup
  | _, [], _ => by simp
  | 0, _ :: _, h => by simp at h
  | n + 1, a :: l, h => by
    rw [List.eraseDups_cons, List.nodup_cons]
    refine ⟨by simp, nodup_eraseDups n _ ?_⟩
    have := List.length_filter_le (fun b => !b == a) l
    simp only [List.length_cons] at h
    omega

theorem litsL_eq : ∀ fs : List (Fm α), litsL fs = fs.flatMap lits
  | [] => rfl
  | f :: fs => by rw [litsL, litsL_eq fs]; rfl

/-- a formula in negation normal form is monotone in its literals -/
theorem litEval_mono {g g' : Lit α → Bool} (f : Fm α) : isNNF f = true → (∀ l ∈ lits f, g l = true → g' l = true) → litEval g f = true → litEval g' f = true := by
  induction f using Fm.ind with
  | hf => simp [litEval]
  | ht => simp [litEval]
  | hl l => intro _ h; simp only [litEval]; exact h l (by simp [lits])
  | hn f ih => intro h; simp [isNNF] at h
  | ha fs ih =>
    intro h h2
    rw [isNNF_and, List.all_eq_true] at h
    rw [litEval, litEval, litEvalAll_eq, litEvalAll_eq, List.all_eq_true, List.all_eq_true]
    exact fun h3 f hf => ih f hf (h f hf) (fun l hl => h2 l (by rw [lits, litsL_eq]; exact List.mem_flatMap.2 ⟨f, hf, hl⟩)) (h3 f hf)
  | ho fs ih =>
    intro h h2
    rw [isNNF_or, List.all_eq_true] at h
    rw [litEval, litEval, litEvalAny_eq, litEvalAny_eq, List.any_eq_true, List.any_eq_true]
    rintro ⟨f, hf, h3⟩
    exact ⟨f, hf, ih f hf (h f hf) (fun l hl => h2 l (by rw [lits, litsL_eq]; exact List.mem_flatMap.2 ⟨f, hf, hl⟩)) h3⟩
  | hi f g h1 h2 => intro h; simp [isNNF] at h
  | he f g h1 h2 => intro h; simp [isNNF] at h
  | hc c k xs => intro h; simp [isNNF] at h
  | hp c k ts => intro h; simp [isNNF] at h

theorem litEval_eval (v : α → Bool) (f : Fm α) : isNNF f = true → litEval (fun l => l.eval v) f = f.eval v := by
  induction f using Fm.ind with
  | hf => simp [litEval]
  | ht => simp [litEval]
  | hl l => simp [litEval]
  | hn f ih => intro h; simp [isNNF] at h
  | ha fs ih =>
    intro h
    rw [isNNF_and, List.all_eq_true] at h
    rw [litEval, litEvalAll_eq, Fm.eval_and, Bool.eq_iff_iff, List.all_eq_true, List.all_eq_true]
    exact forall_congr' fun f => forall_congr' fun hf => by rw [ih f hf (h f hf)]
  | ho fs ih =>
    intro h
    rw [isNNF_or, List.all_eq_true] at h
    rw [litEval, litEvalAny_eq, Fm.eval_or, Bool.eq_iff_iff, List.any_eq_true, List.any_eq_true]
    exact exists_congr fun f => and_congr_right fun hf => by rw [ih f hf (h f hf)]
  | hi f g h1 h2 => intro h; simp [isNNF] at h
  | he f g h1 h2 => intro h; simp [isNNF] at h
  | hc c k xs => intro h; simp [isNNF] at h
  | hp c k ts => intro h; simp [isNNF] at h

/-- the term `T` makes the formula true if every literal outside `T` is counted as false -/
def Forces (f : Fm α) (T : List (Lit α)) : Prop := litEval (fun l => decide (l ∈ T)) f = true

theorem Forces.implicant {f : Fm α} (hf : isNNF f = true) {T : List (Lit α)} (h : Forces f T) : ∀ v, TermTrue v T → f.eval v = true := by
  intro v hv
  rw [← litEval_eval v f hf]
  exact litEval_mono f hf (fun l _ hl => hv l (by simpa using hl)) h

/-- the formulas on the solver -/
theorem min_holds {cons : Bool} {nv : Lit α → α} {old : α → Lit α} {nnf : Fm α} (hnnf : isNNF nnf = true) {ls : List (Lit α)}
    (hls : ∀ l, l ∈ ls ↔ l ∈ lits nnf) (v : α → Bool) :
    Holds v (substLits cons (fun l => if l ∈ ls then some ⟨nv l, true⟩ else none) nnf :: minConstraints nv ls) ↔
      litEval (fun l => v (nv l)) nnf = true ∧ ∀ l ∈ ls, l.neg ∈ ls → v (nv l) = true → v (nv l.neg) = false := by
  have hsub : (substLits cons (fun l => if l ∈ ls then some ⟨nv l, true⟩ else none) nnf).eval v = true ↔ litEval (fun l => v (nv l)) nnf = true := by
    rw [C34_literals]
    have : ∀ l ∈ lits nnf, litVal (fun l => if l ∈ ls then some ⟨nv l, true⟩ else none) v l = v (nv l) := by
      intro l hl
      unfold litVal
      dsimp only
      rw [if_pos ((hls l).2 hl)]
      simp [Lit.eval]
    exact ⟨litEval_mono nnf hnnf fun l hl h => by rwa [this l hl] at h, litEval_mono nnf hnnf fun l hl h => by rwa [this l hl]⟩
  have hcon : Holds v (minConstraints nv ls) ↔ ∀ l ∈ ls, l.neg ∈ ls → v (nv l) = true → v (nv l.neg) = false := by
    unfold Holds minConstraints
    rw [List.forall_mem_map]
    have hcc : ∀ a b : α, (tCC .le 1 [a, b] : Fm α).eval v = true ↔ (v a = true → v b = false) := by
      intro a b
      rw [eval_tCC]
      rcases Bool.eq_false_or_eq_true (v a) with h1 | h1 <;> rcases Bool.eq_false_or_eq_true (v b) with h2 | h2 <;> simp [cntTrue, Cmp.holds, h1, h2]
    constructor
    · intro h l hl hn ht
      obtain ⟨x, p⟩ := l
      cases p with
      | true =>
        have := h ⟨x, true⟩ (by simp [hl]; exact hn)
        exact (hcc _ _).1 this ht
      | false =>
        have := (hcc _ _).1 (h (Lit.neg ⟨x, false⟩) (by simp [hn, neg_neg, hl]; rfl))
        rw [neg_neg] at this
        by_contra hc
        have := this (by simpa using hc)
        rw [ht] at this; cases this
    · intro h l hl
      simp only [List.mem_filter, Bool.and_eq_true, decide_eq_true_eq] at hl
      exact (hcc _ _).2 (h l hl.1 hl.2.2)
  rw [← hsub, ← hcon]
  simp [Holds]

/-- C37 for `Minimum` on formulas without cardinality and pseudo-Boolean constraints: an error exactly for unsatisfiable formulas,
otherwise an implicant with as few literals as possible among the terms which make the *negation normal form* true without looking at the values of the other
variables. Missing: the implicant need not be prime (`C37_minimum_false`). -/
theorem C37_minimum_partial {o : Orc α} (ho : o.Ok false) (cons : Bool) (enc : Fm α → Fm α) {nv : Lit α → α} {old : α → Lit α} (hn : Nv nv old) (f : Fm α)
    (hf : f.pbFree = true) {r : Option (List (Lit α))} (h : minimum o cons enc nv old f = some r) :
    (r = none ↔ ∀ v, f.eval v = false) ∧
    ∀ P, r = some P → Implicant f P ∧ Forces (NF.nnf cons enc f true) P ∧
      ∀ T, Consistent T → Forces (NF.nnf cons enc f true) T → P.length ≤ T.dedup.length := by
  have hnnf := NF.C08_nnf_shape cons enc f hf true
  have hequ := NF.C08_nnf_equivalent cons enc f hf
  unfold minimum at h
  dsimp only at h
  obtain ⟨nnf, hN⟩ : ∃ nnf, NF.nnf cons enc f true = nnf := ⟨_, rfl⟩
  rw [hN] at h hnnf hequ ⊢
  obtain ⟨ls, hL⟩ : ∃ ls, o.ordL (lits nnf).dedup = ls := ⟨_, rfl⟩
  have hls : ∀ l, l ∈ ls ↔ l ∈ lits nnf := fun l => by rw [← hL, (ho.ordL _).mem_iff, List.mem_dedup]
  have hnd : ls.Nodup := by rw [← hL]; exact (ho.ordL _).nodup_iff.2 (List.nodup_dedup _)
  rw [hL] at h
  obtain ⟨H, hH⟩ : ∃ H, substLits cons (fun l => if l ∈ ls then some ⟨nv l, true⟩ else none) nnf :: minConstraints nv ls = H := ⟨_, rfl⟩
  have hholds : ∀ v, Holds v H ↔ litEval (fun l => v (nv l)) nnf = true ∧ ∀ l ∈ ls, l.neg ∈ ls → v (nv l) = true → v (nv l.neg) = false := by
    intro v
    rw [← hH]
    exact min_holds (old := old) hnnf hls v
  -- every term which forces the formula gives a model
  have hterm : ∀ T, Consistent T → Forces nnf T → Holds (fun y => decide (old y ∈ T)) H := by
    intro T hT hF
    rw [hholds]
    simp only [hn.old_nv]
    exact ⟨hF, fun l _ _ hl => by have := hT l (by simpa using hl); simpa using this⟩
  have hsat : ∀ v, f.eval v = true → ∃ w, Holds w H := by
    intro v hv
    let T := (lits nnf).filter fun l => l.eval v
    have hT : TermTrue v T := fun l hl => (List.mem_filter.1 hl).2
    refine ⟨_, hterm T (consistent_of hT) ?_⟩
    have h1 : litEval (fun l => l.eval v) nnf = true := by rw [litEval_eval v nnf hnnf, hequ v]; exact hv
    exact litEval_mono nnf hnnf (fun l hl h => by simp [T, hl]; exact h) h1
  rw [hH] at h
  cases ho1 : o.opt 0 H (ls.map fun l => ⟨nv l, true⟩) with
  | none => rw [ho1] at h; cases h
  | some a =>
  rw [ho1] at h
  cases a with
  | none =>
    simp only [Option.some.injEq] at h
    subst h
    refine ⟨⟨fun _ v => ?_, fun _ => rfl⟩, fun P hP => by cases hP⟩
    by_contra hc
    exact ho.opt_none _ _ _ ho1 (hsat v (by simpa using hc))
  | some v =>
    simp only [Option.some.injEq] at h
    subst h
    have hv := ho.opt_some _ _ _ _ ho1
    obtain ⟨new, hnew⟩ : ∃ new : List (Lit α), (ls.map fun l => (⟨nv l, true⟩ : Lit α)) = new := ⟨_, rfl⟩
    rw [hnew] at hv ⊢
    have hmn : ∀ m, m ∈ new ↔ ∃ l ∈ ls, (⟨nv l, true⟩ : Lit α) = m := by intro m; rw [← hnew, List.mem_map]
    obtain ⟨hv1, hv2⟩ := (hholds v).1 hv.1
    -- true variables are known to the solver
    have hknown : ∀ l ∈ ls, v (nv l) = true → ∃ g ∈ H, nv l ∈ g.vars := by
      intro l hl ht
      by_contra hc
      let w : α → Bool := fun y => if y = nv l then false else v y
      have hw : Holds w H := by
        intro g hg
        rw [← hv.1 g hg]
        refine Fm.eval_congr g fun x hx => ?_
        have : x ≠ nv l := by rintro rfl; exact hc ⟨g, hg, hx⟩
        simp [w, this]
      have h1 := hv.2 w hw
      simp only [Bool.false_eq_true, if_false] at h1
      have h2 : numTrue w new < numTrue v new := by
        refine numTrue_lt (fun m hm he => ?_) ⟨⟨nv l, true⟩, (hmn _).2 ⟨l, hl, rfl⟩, by simpa [Lit.eval] using ht, by simp [Lit.eval, w]⟩
        obtain ⟨k, _, rfl⟩ := (hmn m).1 hm
        simp only [Lit.eval, if_true, w] at he ⊢
        split at he
        · cases he
        · exact he
      omega
    obtain ⟨P, hP⟩ : ∃ P, transformModel old (resultModel o.ordV H new [] v) = P := ⟨_, rfl⟩
    rw [hP]
    have hmem : ∀ l, l ∈ P ↔ l ∈ ls ∧ v (nv l) = true := by
      intro l
      rw [← hP]
      unfold transformModel
      rw [List.mem_map]
      constructor
      · rintro ⟨m, hm, rfl⟩
        rw [List.mem_filter, C48_result_model _ ho.ordV] at hm
        obtain ⟨⟨h1, _, h3⟩, h4⟩ := hm
        rcases h1 with h1 | ⟨k, hk, he⟩
        · simp at h1
        · obtain ⟨l, hl, rfl⟩ := (hmn k).1 hk
          simp only at he
          rw [← he, hn.old_nv]
          refine ⟨hl, ?_⟩
          rw [Lit.eval, if_pos h4] at h3
          rwa [he]
      · rintro ⟨h1, h2⟩
        refine ⟨⟨nv l, true⟩, ?_, hn.old_nv l⟩
        rw [List.mem_filter, C48_result_model _ ho.ordV]
        exact ⟨⟨.inr ⟨_, (hmn _).2 ⟨l, h1, rfl⟩, rfl⟩, hknown l h1 h2, by simpa [Lit.eval] using h2⟩, rfl⟩
    have hforce : Forces nnf P := litEval_mono nnf hnnf (fun l hl h => by simpa [hmem, hls, hl] using h) hv1
    have hcons : Consistent P := by
      intro l hl hl'
      rw [hmem] at hl hl'
      have := hv2 l hl.1 hl'.1 hl.2
      rw [hl'.2] at this; cases this
    have hPnd : P.Nodup := by
      rw [← hP]
      unfold transformModel resultModel
      have h0 : ((o.ordV ([] ++ new.map fun l : Lit α => l.var).eraseDups).filter (known H)).Nodup :=
        ((ho.ordV _).nodup_iff.2 (nodup_eraseDups _ _ (Nat.le_refl _))).filter _
      have h1 : ((((o.ordV ([] ++ new.map fun l : Lit α => l.var).eraseDups).filter (known H)).map fun x => (⟨x, v x⟩ : Lit α)).filter (·.pos)).Nodup :=
        (List.Nodup.map_on (fun a _ b _ e => congrArg Lit.var e) h0).filter _
      refine List.Nodup.map_on ?_ h1
      intro a ha b hb e
      have hx : ∀ a ∈ ((((o.ordV ([] ++ new.map fun l : Lit α => l.var).eraseDups).filter (known H)).map fun x => (⟨x, v x⟩ : Lit α)).filter (·.pos)),
          ∃ l, a = ⟨nv l, true⟩ := by
        intro a ha
        obtain ⟨ha1, ha2⟩ := List.mem_filter.1 ha
        obtain ⟨x, hx, rfl⟩ := List.mem_map.1 ha1
        have := (ho.ordV _).mem_iff.1 (List.mem_filter.1 hx).1
        rw [List.mem_eraseDups, List.nil_append, List.mem_map] at this
        obtain ⟨m, hm, rfl⟩ := this
        obtain ⟨l, _, rfl⟩ := (hmn m).1 hm
        simp only at ha2
        exact ⟨l, by rw [ha2]⟩
      obtain ⟨l, rfl⟩ := hx a ha
      obtain ⟨l', rfl⟩ := hx b hb
      simp only [hn.old_nv] at e
      rw [e]
    refine ⟨⟨fun h => (by cases h), fun h => ?_⟩, fun P' hP' => ?_⟩
    · have h1 := hforce.implicant hnnf _ (asg_true hcons)
      rw [hequ, h] at h1
      cases h1
    · cases hP'
      refine ⟨⟨hcons, fun u hu => ?_⟩, hforce, fun T hT hF => ?_⟩
      · rw [← hequ u]
        exact hforce.implicant hnnf u hu
      · have h1 := hv.2 _ (hterm T hT hF)
        simp only [Bool.false_eq_true, if_false] at h1
        have h2 : P.length ≤ numTrue v new := by
          have hnd' : (P.map fun l => (⟨nv l, true⟩ : Lit α)).Nodup :=
            List.Nodup.map_on (fun a _ b _ e => hn.inj (by simpa using e)) hPnd
          have := (hnd'.subperm (l₂ := new.filter fun l => l.eval v) fun m hm => by
            obtain ⟨l, hl, rfl⟩ := List.mem_map.1 hm
            rw [hmem] at hl
            rw [List.mem_filter]
            exact ⟨(hmn _).2 ⟨l, hl.1, rfl⟩, by simpa [Lit.eval] using hl.2⟩).length_le
          simpa [numTrue] using this
        have h3 : numTrue (fun y => decide (old y ∈ T)) new ≤ T.dedup.length := by
          have hnewnd : new.Nodup := by
            rw [← hnew]
            exact List.Nodup.map_on (fun a _ b _ e => hn.inj (by simpa using e)) hnd
          have := (((hnewnd.filter fun l => l.eval fun y => decide (old y ∈ T)).map_on (f := fun m => old m.var) (by
            intro a ha b hb e
            obtain ⟨l, _, rfl⟩ := (hmn a).1 (List.mem_filter.1 ha).1
            obtain ⟨l', _, rfl⟩ := (hmn b).1 (List.mem_filter.1 hb).1
            simp only [hn.old_nv] at e
            rw [e])).subperm (l₂ := T.dedup) (by
              intro l hl
              obtain ⟨m, hm, rfl⟩ := List.mem_map.1 hl
              obtain ⟨h1, h2⟩ := List.mem_filter.1 hm
              obtain ⟨k, _, rfl⟩ := (hmn m).1 h1
              rw [List.mem_dedup]
              simpa [Lit.eval] using h2)).length_le
          simpa [numTrue] using this
        omega

/-- `(a ∧ b) ∨ (a ∧ ¬b)` with `a = 0`, `b = 1` -/
def exMin : Fm Nat := .or [.and [.lit ⟨0, true⟩, .lit ⟨1, true⟩], .and [.lit ⟨0, true⟩, .lit ⟨1, false⟩]]

/-- `Minimum` does not return a prime implicant: for `(a ∧ b) ∨ (a ∧ ¬b)` it never does, whatever the solver answers -/
theorem C37_minimum_false {o : Orc Nat} (ho : o.Ok false) (cons : Bool) (enc : Fm Nat → Fm Nat) {nv : Lit Nat → Nat} {old : Nat → Lit Nat} (hn : Nv nv old) :
    PrimeImplicant exMin [⟨0, true⟩] ∧
    ∀ r, minimum o cons enc nv old exMin = some r → ∃ P, r = some P ∧ ¬ PrimeImplicant exMin P ∧ 2 ≤ P.length := by
  have hi : Implicant exMin [⟨0, true⟩] := by
    refine ⟨by intro l hl; simp at hl; subst hl; simp [Lit.neg], fun v hv => ?_⟩
    have := hv _ (List.mem_singleton.2 rfl)
    simp only [Lit.eval, if_true] at this
    cases h1 : v 1 <;> simp [exMin, Lit.eval, this, h1]
  refine ⟨⟨hi, fun Q hQ hQi l hl => ?_⟩, fun r hr => ?_⟩
  · rw [List.mem_singleton] at hl; subst hl
    by_contra hc
    have : Q = [] := by
      cases Q with
      | nil => rfl
      | cons a Q =>
        have := hQ (List.mem_cons_self (a := a))
        rw [List.mem_singleton] at this
        subst this
        exact absurd List.mem_cons_self hc
    subst this
    have := hQi.imp (fun _ => false) (by intro l hl; simp at hl)
    simp [exMin, Lit.eval] at this
  · obtain ⟨h1, h2⟩ := C37_minimum_partial ho cons enc hn exMin (by decide) hr
    cases r with
    | none =>
      have := h1.1 rfl fun _ => true
      simp [exMin, Lit.eval] at this
    | some P =>
      obtain ⟨h3, h4, _⟩ := h2 P rfl
      have hnnf : NF.nnf cons enc exMin true = exMin := by
        cases cons <;> rfl
      rw [hnnf] at h4
      have hb : (⟨1, true⟩ : Lit Nat) ∈ P ∨ (⟨1, false⟩ : Lit Nat) ∈ P := by
        simp [Forces, exMin, litEval, litEvalAny, litEvalAll] at h4
        rcases h4 with h | h
        · exact .inl h.2
        · exact .inr h.2
      have ha : (⟨0, true⟩ : Lit Nat) ∈ P := by
        simp [Forces, exMin, litEval, litEvalAny, litEvalAll] at h4
        rcases h4 with h | h <;> exact h.1
      refine ⟨P, rfl, fun hp => ?_, ?_⟩
      · have := hp.min [⟨0, true⟩] (by simpa using ha) hi
        rcases hb with h | h <;> simpa using this h
      · match P, ha, hb with
        | [], ha, _ => simp at ha
        | [a], ha, hb =>
          simp at ha hb
          subst ha
          simp at hb
        | _ :: _ :: _, _, _ => simp

end Verif.Prime
