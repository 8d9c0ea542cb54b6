import Verif.NormalForm.Lemmas
/-! Normal forms introduce no variables. -/
namespace Verif.NF
open Verif Verif.Tree Verif.Spec
variable {α : Type} [DecidableEq α] {σ : Type}

/-- all variables of `f` satisfy `X` -/
def VIn (X : α → Prop) (f : Fm α) : Prop := ∀ x ∈ f.vars, X x

theorem VIn.tAnd {X : α → Prop} {c : Bool} {fs : List (Fm α)} (h : ∀ f ∈ fs, VIn X f) : VIn X (tAnd c fs) := fun x hx => by
  obtain ⟨f, hf, h1⟩ := vars_tAnd c fs x hx; exact h f hf x h1
theorem VIn.tOr {X : α → Prop} {c : Bool} {fs : List (Fm α)} (h : ∀ f ∈ fs, VIn X f) : VIn X (tOr c fs) := fun x hx => by
  obtain ⟨f, hf, h1⟩ := vars_tOr c fs x hx; exact h f hf x h1
theorem VIn.outerJoin {X : α → Prop} {c d : Bool} {fs : List (Fm α)} (h : ∀ f ∈ fs, VIn X f) : VIn X (outerJoin c d fs) := by
  unfold NF.outerJoin; split; exact VIn.tAnd h; exact VIn.tOr h
theorem VIn.innerJoin {X : α → Prop} {c d : Bool} {fs : List (Fm α)} (h : ∀ f ∈ fs, VIn X f) : VIn X (innerJoin c d fs) := by
  unfold NF.innerJoin; split; exact VIn.tOr h; exact VIn.tAnd h
omit [DecidableEq α] in
theorem VIn.and_iff {X : α → Prop} {fs : List (Fm α)} : VIn X (.and fs) ↔ ∀ f ∈ fs, VIn X f := by
  simp only [VIn, Fm.vars_and, List.mem_flatMap]
  exact ⟨fun h f hf x hx => h x ⟨f, hf, hx⟩, fun h x ⟨f, hf, hx⟩ => h f hf x hx⟩
omit [DecidableEq α] in
theorem VIn.or_iff {X : α → Prop} {fs : List (Fm α)} : VIn X (.or fs) ↔ ∀ f ∈ fs, VIn X f := by
  simp only [VIn, Fm.vars_or, List.mem_flatMap]
  exact ⟨fun h f hf x hx => h x ⟨f, hf, hx⟩, fun h x ⟨f, hf, hx⟩ => h f hf x hx⟩
omit [DecidableEq α] in
theorem VIn.outerOps {X : α → Prop} {d : Bool} {f : Fm α} {fs : List (Fm α)} (h : VIn X f) (e : outerOps d f = some fs) : ∀ g ∈ fs, VIn X g := by
  cases f <;> simp [NF.outerOps] at e
  · obtain ⟨_, rfl⟩ := e; exact VIn.and_iff.1 h
  · obtain ⟨_, rfl⟩ := e; exact VIn.or_iff.1 h
omit [DecidableEq α] in
theorem VIn.tNot {X : α → Prop} {f : Fm α} (h : VIn X f) : VIn X (tNot f) := by simpa [VIn] using h

theorem nnf_vin {X : α → Prop} {c : Bool} {enc : Fm α → Fm α} (f : Fm α) (h : f.pbFree = true) (hv : VIn X f) : ∀ p, VIn X (nnf c enc f p) := by
  induction f using Fm.ind with
  | hf => intro p; rw [nnf]; cases p <;> simp [VIn, Tree.tNot]
  | ht => intro p; rw [nnf]; cases p <;> simp [VIn, Tree.tNot]
  | hl l => intro p; rw [nnf]; cases p; exact hv.tNot; exact hv
  | hn f ih => intro p; rw [nnf]; exact ih (by simpa using h) (by simpa [VIn] using hv) _
  | ha fs ih =>
    intro p
    simp at h
    rw [VIn.and_iff] at hv
    rw [nnf, nnfL_eq]
    have : ∀ g ∈ fs.map (fun f => nnf c enc f p), VIn X g := by
      simp only [List.mem_map]; rintro _ ⟨f, hf, rfl⟩; exact ih f hf (h f hf) (hv f hf) p
    split
    · exact VIn.tAnd this
    · exact VIn.tOr this
  | ho fs ih =>
    intro p
    simp at h
    rw [VIn.or_iff] at hv
    rw [nnf, nnfL_eq]
    have : ∀ g ∈ fs.map (fun f => nnf c enc f p), VIn X g := by
      simp only [List.mem_map]; rintro _ ⟨f, hf, rfl⟩; exact ih f hf (h f hf) (hv f hf) p
    split
    · exact VIn.tOr this
    · exact VIn.tAnd this
  | hi f g h1 h2 =>
    intro p
    simp at h
    have hv1 : VIn X f := fun x hx => hv x (by simp [hx])
    have hv2 : VIn X g := fun x hx => hv x (by simp [hx])
    rw [nnf]
    split
    · exact VIn.tOr (by simp [h1 h.1 hv1, h2 h.2 hv2])
    · exact VIn.tAnd (by simp [h1 h.1 hv1, h2 h.2 hv2])
  | he f g h1 h2 =>
    intro p
    simp at h
    have hv1 : VIn X f := fun x hx => hv x (by simp [hx])
    have hv2 : VIn X g := fun x hx => hv x (by simp [hx])
    rw [nnf]
    have two : ∀ {a b : Fm α}, VIn X a → VIn X b → VIn X (Tree.tOr c [a, b]) := fun ha hb => VIn.tOr (by simp [ha, hb])
    split <;> refine VIn.tAnd ?_ <;> simp only [List.mem_cons, List.not_mem_nil, or_false] <;> rintro _ (rfl | rfl) <;>
      exact two (h1 h.1 hv1 _) (h2 h.2 hv2 _)
  | hc c k xs => simp at h
  | hp c k ts => simp at h

mutual
theorem distribute_vin {X : α → Prop} (c d : Bool) (h : Hdl σ) (f1 f2 : Fm α) (s : FS σ α) (h1 : VIn X f1) (h2 : VIn X f2) :
    VIn X (distribute c d h f1 f2 s).1.1 := by
  rw [distribute]
  simp only
  split
  · simp [VIn]
  split
  · rename_i ops e1
    have := outerOps_size e1
    have ih := distributeL_vin c d h ops f2 (ask h .distribution s).2 (h1.outerOps e1) h2
    split
    · simp [VIn]
    · exact VIn.outerJoin ih
  · split
    · rename_i ops e2
      have := outerOps_size e2
      have ih := distributeL_vin c d h ops f1 (ask h .distribution s).2 (h2.outerOps e2) h1
      split
      · simp [VIn]
      · exact VIn.outerJoin ih
    · exact VIn.innerJoin (by simp [h1, h2])
termination_by sizeOf f1 + sizeOf f2
theorem distributeL_vin {X : α → Prop} (c d : Bool) (h : Hdl σ) (ops : List (Fm α)) (form : Fm α) (s : FS σ α) (h1 : ∀ f ∈ ops, VIn X f)
    (h2 : VIn X form) : ∀ g ∈ (distributeL c d h ops form s).1.1, VIn X g := by
  match ops with
  | [] => rw [distributeL]; simp
  | op :: ops =>
    have i1 := distribute_vin c d h op form s (h1 op (by simp)) h2
    have i2 := distributeL_vin c d h ops form (distribute c d h op form s).2 (fun f hf => h1 f (by simp [hf])) h2
    rw [distributeL]
    simp only
    split
    · simp
    · intro g hg
      rcases List.mem_cons.1 hg with rfl | hg
      · exact i1
      · exact i2 g hg
termination_by sizeOf ops + sizeOf form
end

theorem distAll_vin {X : α → Prop} (c d : Bool) (h : Hdl σ) : ∀ (fs : List (Fm α)) (acc : Fm α) (s : FS σ α),
    (∀ f ∈ acc :: fs, VIn X f) → VIn X (distAll c d h acc fs s).1.1
  | [], acc, s, h1 => by simpa [distAll] using h1
  | f :: fs, acc, s, h1 => by
    rw [distAll]
    split
    · simp [VIn]
    · refine distAll_vin c d h fs _ _ ?_
      intro g hg
      rcases List.mem_cons.1 hg with rfl | hg
      · exact distribute_vin c d h acc f s (h1 acc (by simp)) (h1 f (by simp))
      · exact h1 g (by simp [hg])

/-- no entry of the cache introduces a variable -/
def CVars (cache : List (Fm α × Fm α)) : Prop := ∀ e ∈ cache, ∀ x ∈ e.2.vars, x ∈ e.1.vars

/-- the call did not introduce variables -/
def RV (f : Fm α) (r : (Fm α × Bool) × FS σ α) : Prop := CVars r.2.cache ∧ ∀ x ∈ r.1.1.vars, x ∈ f.vars

theorem lookup_mem {k x : Fm α} : ∀ {l : List (Fm α × Fm α)}, l.lookup k = some x → (k, x) ∈ l
  | [], h => by simp at h
  | (a, b) :: l, h => by
    rw [List.lookup_cons] at h
    split at h
    · rename_i h1; simp at h h1; subst h; subst h1; simp
    · simp [lookup_mem h]

theorem cached_vars {d : Bool} {f : Fm α} {s : FS σ α} {k : (Fm α × Bool) × FS σ α} (hs : CVars s.cache)
    (hk : RV f k) : RV f (cached d f s k) := by
  unfold cached
  split
  · rename_i g hg
    refine ⟨hs, ?_⟩
    unfold lookupCache at hg
    split at hg
    · simp at hg; subst hg; exact fun x hx => hx
    · exact hs _ (lookup_mem hg)
  · unfold finish
    split
    · refine ⟨?_, hk.2⟩
      intro e he
      rcases List.mem_cons.1 he with rfl | he
      · exact hk.2
      · exact hk.1 e he
    · exact ⟨hk.1, by simp⟩

variable {cons d : Bool} {h : Hdl σ} {enc : Fm α → Fm α} {onNNF : Fm α → FS σ α → (Fm α × Bool) × FS σ α}


mutual
theorem distribute_cacheEq (c d : Bool) (h : Hdl σ) (f1 f2 : Fm α) (s : FS σ α) : (distribute c d h f1 f2 s).2.cache = s.cache := by
  rw [distribute]
  simp only
  split
  · rfl
  split
  · rename_i ops e1
    have := outerOps_size e1
    have ih := distributeL_cacheEq c d h ops f2 (ask h .distribution s).2
    split <;> exact ih
  · split
    · rename_i ops e2
      have := outerOps_size e2
      have ih := distributeL_cacheEq c d h ops f1 (ask h .distribution s).2
      split <;> exact ih
    · rfl
termination_by sizeOf f1 + sizeOf f2
theorem distributeL_cacheEq (c d : Bool) (h : Hdl σ) (ops : List (Fm α)) (form : Fm α) (s : FS σ α) :
    (distributeL c d h ops form s).2.cache = s.cache := by
  match ops with
  | [] => rw [distributeL]
  | op :: ops =>
    have i1 := distribute_cacheEq c d h op form s
    have i2 := distributeL_cacheEq c d h ops form (distribute c d h op form s).2
    rw [distributeL]
    simp only
    split
    · exact i1
    · exact i2.trans i1
termination_by sizeOf ops + sizeOf form
end
theorem distAll_cacheEq (c d : Bool) (h : Hdl σ) : ∀ (fs : List (Fm α)) (acc : Fm α) (s : FS σ α), (distAll c d h acc fs s).2.cache = s.cache
  | [], acc, s => rfl
  | f :: fs, acc, s => by
    rw [distAll]
    split
    · exact distribute_cacheEq c d h acc f s
    · exact (distAll_cacheEq c d h fs _ _).trans (distribute_cacheEq c d h acc f s)

theorem factOps_vars : ∀ (fs : List (Fm α)) (s : FS σ α),
    (∀ f ∈ fs, ∀ s, CVars s.cache → RV f (factBody cons d h enc onNNF f s)) → CVars s.cache →
    CVars (factOps cons d h enc onNNF fs s).2.cache ∧
      ∀ g ∈ (factOps cons d h enc onNNF fs s).1.1, VIn (fun x => ∃ f ∈ fs, x ∈ f.vars) g
  | [], s, _, hs => by simp [factOps, hs]
  | f :: fs, s, hf, hs => by
    have h1 := hf f (by simp) s hs
    have ih := factOps_vars fs (factBody cons d h enc onNNF f s).2 (fun g hg => hf g (by simp [hg])) h1.1
    rw [factOps]
    simp only
    split
    · exact ⟨h1.1, by simp⟩
    · refine ⟨ih.1, ?_⟩
      intro g hg
      rcases List.mem_cons.1 hg with rfl | hg
      · exact fun x hx => ⟨f, by simp, h1.2 x hx⟩
      · intro x hx
        obtain ⟨k, hk, h2⟩ := ih.2 g hg x hx
        exact ⟨k, by simp [hk], h2⟩

theorem factBody_vars (ho : ∀ g s, g.pbFree = true → CVars s.cache → RV g (onNNF g s)) (hn : ∀ f : Fm α, f.pbFree = true → (nnf cons enc f true).pbFree = true)
    (f : Fm α) (hp : f.pbFree = true) : ∀ s, CVars s.cache → RV f (factBody cons d h enc onNNF f s) := by
  have neg : ∀ f : Fm α, f.pbFree = true → ∀ s, CVars s.cache → RV f (onNNF (nnf cons enc f true) s) := by
    intro f hf s hs
    have := ho _ s (hn f hf) hs
    exact ⟨this.1, fun x hx => nnf_vin (X := (· ∈ f.vars)) f hf (fun _ h => h) true x (this.2 x hx)⟩
  induction f using Fm.ind with
  | hf => intro s hs; rw [factBody]; exact ⟨hs, fun _ h => h⟩
  | ht => intro s hs; rw [factBody]; exact ⟨hs, fun _ h => h⟩
  | hl l => intro s hs; rw [factBody]; exact ⟨hs, fun _ h => h⟩
  | hn f ih => intro s hs; rw [factBody]; exact cached_vars hs (neg _ hp s hs)
  | hi f g h1 h2 => intro s hs; rw [factBody]; exact cached_vars hs (neg _ hp s hs)
  | he f g h1 h2 => intro s hs; rw [factBody]; exact cached_vars hs (neg _ hp s hs)
  | hc c k xs => simp at hp
  | hp c k ts => simp at hp
  | ha fs ih =>
    intro s hs; rw [factBody]
    refine cached_vars hs ?_
    simp at hp
    have ops := factOps_vars (cons := cons) (d := d) (h := h) (enc := enc) (onNNF := onNNF) fs s (fun f hf => ih f hf (hp f hf)) hs
    generalize factOps cons d h enc onNNF fs s = r at ops
    have e : ∀ x, x ∈ (Fm.and fs).vars ↔ ∃ f ∈ fs, x ∈ f.vars := by simp
    simp only [RV, e]
    split
    · exact ⟨ops.1, by simp⟩
    split
    · exact ⟨ops.1, VIn.tAnd (X := fun x => ∃ f ∈ fs, x ∈ f.vars) ops.2⟩
    split
    · exact ⟨ops.1, by simp⟩
    · rename_i g gs e'
      refine ⟨by rw [distAll_cacheEq]; exact ops.1, ?_⟩
      exact distAll_vin (X := fun x => ∃ f ∈ fs, x ∈ f.vars) _ _ _ _ _ _ (by rw [← e']; exact ops.2)
  | ho fs ih =>
    intro s hs; rw [factBody]
    refine cached_vars hs ?_
    simp at hp
    have ops := factOps_vars (cons := cons) (d := d) (h := h) (enc := enc) (onNNF := onNNF) fs s (fun f hf => ih f hf (hp f hf)) hs
    generalize factOps cons d h enc onNNF fs s = r at ops
    have e : ∀ x, x ∈ (Fm.or fs).vars ↔ ∃ f ∈ fs, x ∈ f.vars := by simp
    simp only [RV, e]
    split
    · exact ⟨ops.1, by simp⟩
    split
    · split
      · exact ⟨ops.1, by simp⟩
      · rename_i g gs e'
        refine ⟨by rw [distAll_cacheEq]; exact ops.1, ?_⟩
        exact distAll_vin (X := fun x => ∃ f ∈ fs, x ∈ f.vars) _ _ _ _ _ _ (by rw [← e']; exact ops.2)
    · exact ⟨ops.1, VIn.tOr (X := fun x => ∃ f ∈ fs, x ∈ f.vars) ops.2⟩

omit [DecidableEq α] in
theorem isNNF_pbFree (f : Fm α) : isNNF f = true → f.pbFree = true := by
  induction f using Fm.ind with
  | hf => simp
  | ht => simp
  | hl l => simp
  | hn f ih => simp [isNNF]
  | ha fs ih => simp only [isNNF_and, Fm.pbFree_and, List.all_eq_true]; exact fun h f hf => ih f hf (h f hf)
  | ho fs ih => simp only [isNNF_or, Fm.pbFree_or, List.all_eq_true]; exact fun h f hf => ih f hf (h f hf)
  | hi f g h1 h2 => simp [isNNF]
  | he f g h1 h2 => simp [isNNF]
  | hc c k xs => simp [isNNF]
  | hp c k ts => simp [isNNF]

theorem factRec_vars (cons d : Bool) (h : Hdl σ) (enc : Fm α → Fm α) (f : Fm α) (hp : f.pbFree = true) (s : FS σ α) (hs : CVars s.cache) :
    RV f (factRec cons d h enc f s) := by
  have hn : ∀ f : Fm α, f.pbFree = true → (nnf cons enc f true).pbFree = true := fun f hf =>
    isNNF_pbFree _ (nnf_pbFree_core f hf true).isNNF
  exact factBody_vars (fun g s hg hs => factBody_vars (fun k s _ hs => ⟨hs, fun _ h => h⟩) hn g hg s hs) hn f hp s hs

end Verif.NF
