import Verif.NormalForm.Fact
/-! Success flag of the factorization and the answers of the handler. -/
namespace Verif.NF
open Verif Verif.Tree Verif.Spec
variable {α : Type} [DecidableEq α] {σ : Type}

/-- the handler `h`, recording its answers (latest first) -/
def logged (h : Hdl σ) : Hdl (σ × List Bool) :=
  ⟨fun s e => ((h.resume s.1 e).1, ((h.resume s.1 e).2, (h.resume s.1 e).1 :: s.2))⟩

/-- from `s` to `s'` the handler always resumed (`ok`) or cancelled at the very last event (`¬ok`) -/
def Run (s s' : FS (σ × List Bool) α) (ok : Bool) : Prop :=
  ∃ n, s'.h.2 = (if ok then [] else [false]) ++ (List.replicate n true ++ s.h.2)

omit [DecidableEq α] in
theorem Run.refl (s : FS (σ × List Bool) α) : Run s s true := ⟨0, by simp⟩
omit [DecidableEq α] in
theorem Run.trans {s s1 s2 : FS (σ × List Bool) α} {ok : Bool} (h1 : Run s s1 true) (h2 : Run s1 s2 ok) : Run s s2 ok := by
  obtain ⟨n, h1⟩ := h1
  obtain ⟨m, h2⟩ := h2
  simp only [if_true, List.nil_append] at h1
  refine ⟨m + n, ?_⟩
  rw [h2, h1, List.replicate_add, List.append_assoc]
omit [DecidableEq α] in
theorem Run.ask (h : Hdl σ) (e : Ev) (s : FS (σ × List Bool) α) : Run s (ask (logged h) e s).2 (ask (logged h) e s).1 := by
  unfold NF.ask logged
  simp only [Run]
  cases (h.resume s.h.1 e).1
  · exact ⟨0, by simp⟩
  · exact ⟨1, by simp [List.replicate]⟩

omit [DecidableEq α] in
theorem Run.cast {s s' : FS (σ × List Bool) α} {a b : Bool} (h : Run s s' a) (e : a = b) : Run s s' b := e ▸ h

mutual
theorem distribute_run (c d : Bool) (h : Hdl σ) (f1 f2 : Fm α) (s : FS (σ × List Bool) α) :
    Run s (distribute c d (logged h) f1 f2 s).2 (distribute c d (logged h) f1 f2 s).1.2 := by
  have h0 := Run.ask h .distribution s
  rw [distribute]
  simp only
  split
  · rename_i h1; exact h0.cast (by simpa using h1)
  rename_i h1
  have h0 := h0.cast (b := true) (by simpa using h1)
  split
  · rename_i ops e1
    have := outerOps_size e1
    have ih := distributeL_run c d h ops f2 (ask (logged h) .distribution s).2
    split
    · rename_i h2; exact h0.trans (ih.cast (by simpa using h2))
    · rename_i h2; exact h0.trans (ih.cast (by simpa using h2))
  · split
    · rename_i ops e2
      have := outerOps_size e2
      have ih := distributeL_run c d h ops f1 (ask (logged h) .distribution s).2
      split
      · rename_i h2; exact h0.trans (ih.cast (by simpa using h2))
      · rename_i h2; exact h0.trans (ih.cast (by simpa using h2))
    · exact h0.trans (Run.ask h .createdClause _)
termination_by sizeOf f1 + sizeOf f2
theorem distributeL_run (c d : Bool) (h : Hdl σ) (ops : List (Fm α)) (form : Fm α) (s : FS (σ × List Bool) α) :
    Run s (distributeL c d (logged h) ops form s).2 (distributeL c d (logged h) ops form s).1.2 := by
  match ops with
  | [] => rw [distributeL]; exact Run.refl s
  | op :: ops =>
    have i1 := distribute_run c d h op form s
    have i2 := distributeL_run c d h ops form (distribute c d (logged h) op form s).2
    rw [distributeL]
    simp only
    split
    · rename_i h1; exact i1.cast (by simpa using h1)
    · rename_i h1; exact (i1.cast (by simpa using h1)).trans i2
termination_by sizeOf ops + sizeOf form
end

theorem distAll_run (c d : Bool) (h : Hdl σ) : ∀ (fs : List (Fm α)) (acc : Fm α) (s : FS (σ × List Bool) α),
    Run s (distAll c d (logged h) acc fs s).2 (distAll c d (logged h) acc fs s).1.2
  | [], acc, s => Run.refl s
  | f :: fs, acc, s => by
    have i1 := distribute_run c d h acc f s
    have i2 := distAll_run c d h fs (distribute c d (logged h) acc f s).1.1 (distribute c d (logged h) acc f s).2
    rw [distAll]
    split
    · rename_i h1; exact i1.cast (by simpa using h1)
    · rename_i h1; exact (i1.cast (by simpa using h1)).trans i2

theorem cached_run {d : Bool} {f : Fm α} {s : FS (σ × List Bool) α} {k : (Fm α × Bool) × FS (σ × List Bool) α} (hk : Run s k.2 k.1.2) :
    Run s (cached d f s k).2 (cached d f s k).1.2 := by
  unfold cached
  split
  · exact Run.refl s
  · unfold finish
    split
    · exact hk
    · rename_i h1; exact hk.cast (by simpa using h1)

variable {cons d : Bool} {h : Hdl σ} {enc : Fm α → Fm α}
  {onNNF : Fm α → FS (σ × List Bool) α → (Fm α × Bool) × FS (σ × List Bool) α}

theorem factOps_run : ∀ (fs : List (Fm α)) (s : FS (σ × List Bool) α),
    (∀ f ∈ fs, ∀ s, Run s (factBody cons d (logged h) enc onNNF f s).2 (factBody cons d (logged h) enc onNNF f s).1.2) →
    Run s (factOps cons d (logged h) enc onNNF fs s).2 (factOps cons d (logged h) enc onNNF fs s).1.2
  | [], s, _ => by rw [factOps]; exact Run.refl s
  | f :: fs, s, hf => by
    have h1 := hf f (by simp) s
    have ih := factOps_run fs (factBody cons d (logged h) enc onNNF f s).2 (fun g hg => hf g (by simp [hg]))
    rw [factOps]
    simp only
    split
    · rename_i h2; exact h1.cast (by simpa using h2)
    · rename_i h2; exact (h1.cast (by simpa using h2)).trans ih

theorem factBody_run (ho : ∀ g s, Run s (onNNF g s).2 (onNNF g s).1.2) (f : Fm α) : ∀ s,
    Run s (factBody cons d (logged h) enc onNNF f s).2 (factBody cons d (logged h) enc onNNF f s).1.2 := by
  induction f using Fm.ind with
  | hf => intro s; rw [factBody]; exact Run.refl s
  | ht => intro s; rw [factBody]; exact Run.refl s
  | hl l => intro s; rw [factBody]; exact Run.refl s
  | hn f ih => intro s; rw [factBody]; exact cached_run (ho _ s)
  | hi f g h1 h2 => intro s; rw [factBody]; exact cached_run (ho _ s)
  | he f g h1 h2 => intro s; rw [factBody]; exact cached_run (ho _ s)
  | hc c k xs => intro s; rw [factBody]; refine cached_run ?_; split; exact Run.refl s; exact ho _ s
  | hp c k ts => intro s; rw [factBody]; refine cached_run ?_; split; exact Run.refl s; exact ho _ s
  | ha fs ih =>
    intro s; rw [factBody]
    refine cached_run ?_
    have ops := factOps_run (cons := cons) (d := d) (h := h) (enc := enc) (onNNF := onNNF) fs s ih
    generalize factOps cons d (logged h) enc onNNF fs s = r at ops
    simp only
    split
    · rename_i h2; exact ops.cast (by simpa using h2)
    rename_i h2
    have ops := ops.cast (b := true) (by simpa using h2)
    split
    · exact ops
    split
    · exact ops
    · exact ops.trans (distAll_run _ _ _ _ _ _)
  | ho fs ih =>
    intro s; rw [factBody]
    refine cached_run ?_
    have ops := factOps_run (cons := cons) (d := d) (h := h) (enc := enc) (onNNF := onNNF) fs s ih
    generalize factOps cons d (logged h) enc onNNF fs s = r at ops
    simp only
    split
    · rename_i h2; exact ops.cast (by simpa using h2)
    rename_i h2
    have ops := ops.cast (b := true) (by simpa using h2)
    split
    · split
      · exact ops
      · exact ops.trans (distAll_run _ _ _ _ _ _)
    · exact ops

theorem factRec_run (cons d : Bool) (h : Hdl σ) (enc : Fm α → Fm α) (f : Fm α) (s : FS (σ × List Bool) α) :
    Run s (factRec cons d (logged h) enc f s).2 (factRec cons d (logged h) enc f s).1.2 :=
  factBody_run (fun g s => factBody_run (fun g s => Run.refl s) g s) f s

theorem factorize_run (cons d : Bool) (h : Hdl σ) (enc : Fm α → Fm α) (f : Fm α) (s : FS (σ × List Bool) α) :
    Run s (factorizeWithHandler cons d (logged h) enc f s).2 (factorizeWithHandler cons d (logged h) enc f s).1.2 := by
  have h0 := Run.ask h .started s
  unfold factorizeWithHandler
  simp only
  split
  · rename_i h1; exact h0.cast (by simpa using h1)
  · rename_i h1; exact (h0.cast (b := true) (by simpa using h1)).trans (factRec_run cons d h enc f _)

/-! ### a handler which never cancels -/

def Always {σ : Type} (h : Hdl σ) : Prop := ∀ s e, (h.resume s e).1 = true

mutual
theorem distribute_always (c d : Bool) {h : Hdl σ} (ha : Always h) (f1 f2 : Fm α) (s : FS σ α) :
    (distribute c d h f1 f2 s).1.2 = true := by
  rw [distribute]
  simp only
  split
  · rename_i h1; simp [ask, ha _ _] at h1
  split
  · rename_i ops e1
    have := outerOps_size e1
    have ih := distributeL_always c d ha ops f2 (ask h .distribution s).2
    simp [ih]
  · split
    · rename_i ops e2
      have := outerOps_size e2
      have ih := distributeL_always c d ha ops f1 (ask h .distribution s).2
      simp [ih]
    · exact ha _ _
termination_by sizeOf f1 + sizeOf f2
theorem distributeL_always (c d : Bool) {h : Hdl σ} (ha : Always h) (ops : List (Fm α)) (form : Fm α) (s : FS σ α) :
    (distributeL c d h ops form s).1.2 = true := by
  match ops with
  | [] => rw [distributeL]
  | op :: ops =>
    have i1 := distribute_always c d ha op form s
    have i2 := distributeL_always c d ha ops form (distribute c d h op form s).2
    rw [distributeL]
    simp [i1, i2]
termination_by sizeOf ops + sizeOf form
end

theorem distAll_always (c d : Bool) {h : Hdl σ} (ha : Always h) : ∀ (fs : List (Fm α)) (acc : Fm α) (s : FS σ α),
    (distAll c d h acc fs s).1.2 = true
  | [], acc, s => rfl
  | f :: fs, acc, s => by
    have i1 := distribute_always c d ha acc f s
    have i2 := distAll_always c d ha fs (distribute c d h acc f s).1.1 (distribute c d h acc f s).2
    rw [distAll]
    simp [i1, i2]

theorem cached_always {d : Bool} {f : Fm α} {s : FS σ α} {k : (Fm α × Bool) × FS σ α} (hk : k.1.2 = true) :
    (cached d f s k).1.2 = true := by
  unfold cached
  split
  · rfl
  · simp [finish, hk]

theorem factOps_always {h : Hdl σ} {onNNF : Fm α → FS σ α → (Fm α × Bool) × FS σ α} : ∀ (fs : List (Fm α)) (s : FS σ α),
    (∀ f ∈ fs, ∀ s, (factBody cons d h enc onNNF f s).1.2 = true) → (factOps cons d h enc onNNF fs s).1.2 = true
  | [], s, _ => by rw [factOps]
  | f :: fs, s, hf => by
    have h1 := hf f (by simp) s
    have ih := factOps_always fs
      (factBody cons d h enc onNNF f s).2 (fun g hg => hf g (by simp [hg]))
    rw [factOps]
    simp [h1, ih]

theorem factBody_always {h : Hdl σ} {onNNF : Fm α → FS σ α → (Fm α × Bool) × FS σ α} (ha : Always h)
    (ho : ∀ g s, (onNNF g s).1.2 = true) (f : Fm α) : ∀ s, (factBody cons d h enc onNNF f s).1.2 = true := by
  induction f using Fm.ind with
  | hf => intro s; rw [factBody]
  | ht => intro s; rw [factBody]
  | hl l => intro s; rw [factBody]
  | hn f ih => intro s; rw [factBody]; exact cached_always (ho _ s)
  | hi f g h1 h2 => intro s; rw [factBody]; exact cached_always (ho _ s)
  | he f g h1 h2 => intro s; rw [factBody]; exact cached_always (ho _ s)
  | hc c k xs => intro s; rw [factBody]; refine cached_always ?_; split; rfl; exact ho _ s
  | hp c k ts => intro s; rw [factBody]; refine cached_always ?_; split; rfl; exact ho _ s
  | ha fs ih =>
    intro s; rw [factBody]
    refine cached_always ?_
    have ops := factOps_always (cons := cons) (d := d) (h := h) (enc := enc) (onNNF := onNNF) fs s ih
    simp only [ops, Bool.not_true, Bool.false_eq_true, if_false]
    split
    · rfl
    split
    · rfl
    · exact distAll_always _ _ ha _ _ _
  | ho fs ih =>
    intro s; rw [factBody]
    refine cached_always ?_
    have ops := factOps_always (cons := cons) (d := d) (h := h) (enc := enc) (onNNF := onNNF) fs s ih
    simp only [ops, Bool.not_true, Bool.false_eq_true, if_false]
    split
    · split
      · rfl
      · exact distAll_always _ _ ha _ _ _
    · rfl

theorem factRec_always {h : Hdl σ} (ha : Always h) (cons d : Bool) (enc : Fm α → Fm α) (f : Fm α) (s : FS σ α) :
    (factRec cons d h enc f s).1.2 = true :=
  factBody_always ha (fun g s => factBody_always ha (fun _ _ => rfl) g s) f s

/-- with the handler which never cancels the factorization succeeds -/
theorem factRec_nop (cons d : Bool) (enc : Fm α → Fm α) (f : Fm α) (cache : List (Fm α × Fm α)) :
    (factRec cons d nopHdl enc f ⟨(), cache⟩).1.2 = true := factRec_always (fun _ _ => rfl) cons d enc f _

end Verif.NF
