import Verif.Solver.PG
import Verif.Encoding.AmoProps
/-! # Adding formulas to the solver -/
namespace Verif.Solver
open Verif
open Verif.Sat (Models lv lv_neg)

variable {α : Type} [DecidableEq α]

/-! ### meaning of the clauses of a solver -/

/-- The clauses `Γ` over variables with these names say that the formulas `F` hold.  `k`: counter of auxiliary variables. -/
structure Sem (slots : List (Slot α)) (Γ : List (List Nat)) (F : List (Fm α)) (k : Nat) : Prop where
  rng : ∀ c ∈ Γ, ∀ l ∈ c, l / 2 < slots.length
  nodup : ∀ (i j : Nat) e, slots[i]? = some (.name e) → slots[j]? = some (.name e) → i = j
  aux : ∀ n, Slot.name (.aux n) ∈ slots → n < k
  sound : ∀ u v, Models Γ u → Agree slots v u → ∀ f ∈ F, f.eval v = true
  complete : ∀ v, (∀ f ∈ F, f.eval v = true) → ∃ u, Agree slots v u ∧ Fits slots v u ∧ Models Γ u

/-- the cache of the transformation is right -/
abbrev COk (Γ : List (List Nat)) (slots : List (Slot α)) (cache : List (Fm α × Entry)) : Prop := CacheOk (fun _ => False) Γ ⟨slots, cache, []⟩

omit [DecidableEq α] in
theorem Sem.wf {slots : List (Slot α)} {Γ : List (List Nat)} {F : List (Fm α)} {k : Nat} (h : Sem slots Γ F k) (cache : List (Fm α × Entry)) : WF Γ ⟨slots, cache, []⟩ :=
  ⟨fun c hc => h.rng c (by simpa [clsOf] using hc), h.nodup⟩

omit [DecidableEq α] in
theorem Sem.mono {slots : List (Slot α)} {Γ : List (List Nat)} {F : List (Fm α)} {k k' : Nat} (h : Sem slots Γ F k) (hk : k ≤ k') : Sem slots Γ F k' :=
  ⟨h.rng, h.nodup, fun n hn => Nat.lt_of_lt_of_le (h.aux n hn) hk, h.sound, h.complete⟩

/-- names of all kinds agree -/
def AgreeE (slots : List (Slot α)) (w : Enc.EV α → Bool) (u : Nat → Bool) : Prop := ∀ (i : Nat) e, slots[i]? = some (.name e) → u i = w e

omit [DecidableEq α] in
theorem AgreeE.agree {slots : List (Slot α)} {w : Enc.EV α → Bool} {u : Nat → Bool} (h : AgreeE slots w u) : Agree slots (fun x => w (.usr x)) u := fun i x hi => h i _ hi
omit [DecidableEq α] in
theorem AgreeE.mono {l l' : List (Slot α)} {w : Enc.EV α → Bool} {u : Nat → Bool} (h : AgreeE l' w u) (hp : l <+: l') : AgreeE l w u := fun i x hi => h i x (getElem_prefix hp hi)

/-- solver assignment extended to new variables -/
def extend (slots slots' : List (Slot α)) (w : Enc.EV α → Bool) (v : α → Bool) (u : Nat → Bool) (i : Nat) : Bool :=
  if i < slots.length then u i else match slots'[i]? with
    | some (.name e) => w e
    | some (.pg g) => g.eval v
    | none => false

theorem models_congr {Γ : List (List Nat)} {u u' : Nat → Bool} {n : Nat} (hr : ∀ c ∈ Γ, ∀ l ∈ c, l / 2 < n) (h : ∀ i < n, u i = u' i) (hu : Models Γ u) : Models Γ u' := by
  intro c hc
  obtain ⟨l, hl, hv⟩ := hu c hc
  refine ⟨l, hl, ?_⟩
  rw [← hv]
  unfold lv
  rw [h _ (hr c hc l hl)]

omit [DecidableEq α] in
theorem extend_old {slots slots' : List (Slot α)} {w : Enc.EV α → Bool} {v : α → Bool} {u : Nat → Bool} {i : Nat} (h : i < slots.length) : extend slots slots' w v u i = u i := by
  unfold extend; rw [if_pos h]

omit [DecidableEq α] in
theorem extend_fits {slots slots' : List (Slot α)} (hp : slots <+: slots') {w : Enc.EV α → Bool} {v : α → Bool} {u : Nat → Bool} (h : Fits slots v u) :
    Fits slots' v (extend slots slots' w v u) := by
  intro i g hi
  by_cases hl : i < slots.length
  · rw [extend_old hl]
    refine h i g ?_
    obtain ⟨t, rfl⟩ := hp
    rw [List.getElem?_append_left hl] at hi; exact hi
  · unfold extend; rw [if_neg hl, hi]

omit [DecidableEq α] in
theorem extend_agreeE {slots slots' : List (Slot α)} (hp : slots <+: slots') {w : Enc.EV α → Bool} {v : α → Bool} {u : Nat → Bool} (h : AgreeE slots w u) :
    AgreeE slots' w (extend slots slots' w v u) := by
  intro i g hi
  by_cases hl : i < slots.length
  · rw [extend_old hl]
    refine h i g ?_
    obtain ⟨t, rfl⟩ := hp
    rw [List.getElem?_append_left hl] at hi; exact hi
  · unfold extend; rw [if_neg hl, hi]

/-- values of all names -/
def valOf (slots : List (Slot α)) (v : α → Bool) (u : Nat → Bool) : Enc.EV α → Bool
  | .usr x => v x
  | .aux n => match idx slots (.aux n) with
    | some i => u i
    | none => false

theorem idx_eq {slots : List (Slot α)} (hn : ∀ (i j : Nat) e, slots[i]? = some (.name e) → slots[j]? = some (.name e) → i = j) {i : Nat} {e : Enc.EV α} (h : slots[i]? = some (.name e)) :
    idx slots e = some i := by
  cases hi : idx slots e with
  | none => exact absurd h (idx_none hi i)
  | some j => rw [hn i j e h (idx_some hi)]

theorem valOf_agree {slots : List (Slot α)} (hn : ∀ (i j : Nat) e, slots[i]? = some (.name e) → slots[j]? = some (.name e) → i = j) {v : α → Bool} {u : Nat → Bool} (h : Agree slots v u) :
    AgreeE slots (valOf slots v u) u := by
  intro i e hi
  cases e with
  | usr x => exact h i x hi
  | aux n => unfold valOf; dsimp only; rw [idx_eq hn hi]

/-- a formula is added: what the steps of the transformation give -/
theorem Sem.step {slots : List (Slot α)} {Γ : List (List Nat)} {F : List (Fm α)} {k N : Nat} {cache : List (Fm α × Entry)} {P : Fm α → Prop} (h : Sem slots Γ F k) {f : Fm α} {s' : PS α}
    (hs : Step P Γ N ⟨slots, cache, []⟩ s') (hc : Compl (fun v => f.eval v = true) ⟨slots, cache, []⟩ s')
    (hf : ∀ u v, Models (Γ ++ clsOf s'.ops) u → Agree s'.slots v u → f.eval v = true) : Sem s'.slots (Γ ++ clsOf s'.ops) (F ++ [f]) k := by
  refine ⟨hs.wf.rng, hs.wf.nodup, fun n hn => h.aux n (hs.aux n hn), fun u v hu ha g hg => ?_, fun v hv => ?_⟩
  · rcases List.mem_append.1 hg with hg | hg
    · exact h.sound u v (fun c hc => hu c (List.mem_append_left _ hc)) (ha.mono hs.slots) g hg
    · rw [List.mem_singleton.1 hg]; exact hf u v hu ha
  · obtain ⟨u, h1, h2, h3⟩ := h.complete v fun g hg => hv g (List.mem_append_left _ hg)
    have a1 : AgreeE s'.slots (valOf slots v u) (extend slots s'.slots (valOf slots v u) v u) := extend_agreeE hs.slots (valOf_agree h.nodup h1)
    have a2 : Fits s'.slots v (extend slots s'.slots (valOf slots v u) v u) := extend_fits hs.slots h2
    refine ⟨_, a1.agree, a2, fun c hcm => ?_⟩
    rcases List.mem_append.1 hcm with hcm | hcm
    · exact models_congr h.rng (fun i hi => (extend_old hi).symm) h3 c hcm
    · exact hc _ v a1.agree a2 (hv f (by simp)) (fun c hc => by cases hc) c hcm

omit [DecidableEq α] in
theorem CacheOk.rebase {P : Fm α → Prop} {Γ : List (List Nat)} {s : PS α} [DecidableEq α] (h : CacheOk P Γ s) : CacheOk P (Γ ++ clsOf s.ops) ⟨s.slots, s.cache, []⟩ :=
  ⟨h.slot, fun g e hl hp hf u v hu ha hx => h.pos g e hl hp hf u v (fun c hc => hu c (List.mem_append_left _ hc)) ha hx,
    fun g e hl hp hf u v hu ha hx => h.neg g e hl hp hf u v (fun c hc => hu c (List.mem_append_left _ hc)) ha hx⟩

/-! ### clauses with names -/

theorem clauseVec_spec {P : Fm α → Prop} {Γ : List (List Nat)} {N : Nat} : ∀ {c : List (Lit (Enc.EV α))} {s : PS α}, WF Γ s → CacheOk P Γ s → (∀ l ∈ c, ∀ n, l.var = .aux n → Slot.name l.var ∈ s.slots) →
    Step P Γ N s (clauseVec c s).2 ∧ clsOf (clauseVec c s).2.ops = clsOf s.ops ∧ (∀ x ∈ (clauseVec c s).1, x / 2 < (clauseVec c s).2.slots.length) ∧
      ∀ u w, AgreeE (clauseVec c s).2.slots w u → (clauseVec c s).1.map (lv u) = c.map (·.eval w)
  | [], s, hw, hc, _ => ⟨Step.refl hw hc, rfl, fun _ h => (by cases h), fun _ _ _ => rfl⟩
  | l :: ls, s, hw, hc, hl => by
    obtain ⟨h1, h2⟩ := solverLit_spec (N := N) hw hc l (hl l List.mem_cons_self)
    rw [clauseVec]
    generalize solverLit l s = p at h1 h2
    obtain ⟨x, s1⟩ := p
    dsimp only at h1 h2 ⊢
    obtain ⟨a1, a2, a3, a4⟩ := clauseVec_spec (N := N) (c := ls) h2.wf h2.cache fun m hm n e => h2.slots.subset (hl m (List.mem_cons_of_mem _ hm) n e)
    generalize clauseVec ls s1 = p at a1 a2 a3 a4
    obtain ⟨xs, s2⟩ := p
    dsimp only at a1 a2 a3 a4 ⊢
    refine ⟨h2.trans a1, a2.trans h1.cls, fun y hy => ?_, fun u w ha => ?_⟩
    · rcases List.mem_cons.1 hy with rfl | hy
      · exact Nat.lt_of_lt_of_le h1.rng a1.slots.length_le
      · exact a3 y hy
    · rw [List.map_cons, List.map_cons, a4 u w ha]
      congr 1
      obtain ⟨i, hi, rfl⟩ := h1.var
      rw [lv_slit, ha i _ (getElem_prefix a1.slots hi)]
      unfold Lit.eval
      cases l.pos <;> cases w l.var <;> rfl

omit [DecidableEq α] in
theorem sat_map_iff {u : Nat → Bool} {w : Enc.EV α → Bool} {xs : List Nat} {c : List (Lit (Enc.EV α))} (h : xs.map (lv u) = c.map (·.eval w)) : Sat.Sat u xs ↔ ∃ l ∈ c, l.eval w = true := by
  have e1 : Sat.Sat u xs ↔ true ∈ xs.map (lv u) := by simp [Sat.Sat]
  have e2 : (∃ l ∈ c, l.eval w = true) ↔ true ∈ c.map (·.eval w) := by simp
  rw [e1, e2, h]

theorem addClauses_spec {P : Fm α → Prop} {Γ : List (List Nat)} {N : Nat} : ∀ {cs : List (List (Lit (Enc.EV α)))} {s : PS α}, WF Γ s → CacheOk P Γ s →
    (∀ c ∈ cs, ∀ l ∈ c, ∀ n, l.var = .aux n → Slot.name l.var ∈ s.slots) →
    Step P Γ N s (addClauses cs s) ∧ ∀ u w, AgreeE (addClauses cs s).slots w u → (Models (clsOf (addClauses cs s).ops) u ↔ Models (clsOf s.ops) u ∧ Enc.Sat w cs)
  | [], s, hw, hc, _ => ⟨Step.refl hw hc, fun u w _ => by simp [addClauses]⟩
  | c :: cs, s, hw, hc, hl => by
    obtain ⟨a1, a2, a3, a4⟩ := clauseVec_spec (N := N) (c := c) hw hc (hl c List.mem_cons_self)
    rw [addClauses]
    generalize clauseVec c s = p at a1 a2 a3 a4
    obtain ⟨xs, s1⟩ := p
    dsimp only at a1 a2 a3 a4 ⊢
    have b1 := a1.add a3
    obtain ⟨c1, c2⟩ := addClauses_spec (N := N) (cs := cs) b1.wf b1.cache fun d hd l hl' n e => a1.slots.subset (hl d (List.mem_cons_of_mem _ hd) l hl' n e)
    refine ⟨b1.trans c1, fun u w ha => ?_⟩
    rw [c2 u w ha]
    have hs := sat_map_iff (a4 u w (ha.mono c1.slots))
    have e : clsOf (s1.add xs).ops = clsOf s.ops ++ [xs] := by rw [← a2]; exact clsOf_add _ _
    rw [e, ← Sat.models_append, hs, Enc.sat_cons, and_assoc]

theorem newAux_zero (k : Nat) (s : PS α) : newAux k 0 s = s := rfl
theorem newAux_succ (k n : Nat) (s : PS α) : newAux k (n + 1) s = newAux (k + 1) n (s.new (.name (.aux k))) := by
  unfold newAux
  rw [List.range'_succ]; rfl

theorem newAux_spec {P : Fm α → Prop} {Γ : List (List Nat)} : ∀ (n k : Nat) (s : PS α), WF Γ s → CacheOk P Γ s → (∀ m, Slot.name (.aux m) ∈ s.slots → m < k) →
    s.slots <+: (newAux k n s).slots ∧ s.ops <+: (newAux k n s).ops ∧ clsOf (newAux k n s).ops = clsOf s.ops ∧ WF Γ (newAux k n s) ∧ CacheOk P Γ (newAux k n s) ∧
      (∀ b, Bal b s → Bal b (newAux k n s)) ∧ (∀ m, Slot.name (.aux m) ∈ (newAux k n s).slots → m < k + n) ∧ ∀ m, k ≤ m → m < k + n → Slot.name (.aux m) ∈ (newAux k n s).slots
  | 0, k, s, hw, hc, ha => ⟨List.prefix_refl _, List.prefix_refl _, rfl, hw, hc, fun _ h => h, ha, fun m h1 h2 => absurd h2 (by omega)⟩
  | n + 1, k, s, hw, hc, ha => by
    rw [newAux_succ]
    have hn : idx s.slots (.aux k) = none := by
      cases hi : idx s.slots (.aux k) with
      | none => rfl
      | some i => exact absurd (ha k (List.mem_of_getElem? (idx_some hi))) (Nat.lt_irrefl _)
    have hw' : WF Γ (s.new (.name (.aux k))) := hw.new fun e he => by cases he; exact hn
    have ha' : ∀ m, Slot.name (.aux m) ∈ (s.new (.name (.aux k))).slots → m < k + 1 := by
      intro m hm
      have hm : Slot.name (.aux m) ∈ s.slots ++ [.name (.aux k)] := hm
      rcases List.mem_append.1 hm with hm | hm
      · have := ha m hm; omega
      · cases List.mem_singleton.1 hm; omega
    obtain ⟨h1, h2, h3, h4, h5, h6, h7, h8⟩ := newAux_spec n (k + 1) _ hw' (hc.new _) ha'
    refine ⟨(List.prefix_append _ _).trans h1, (List.prefix_append _ _).trans h2, h3.trans (clsOf_new _), h4, h5, fun b hb => h6 b (hb.new _), fun m hm => by have := h7 m hm; omega, fun m hm hm' => ?_⟩
    by_cases hk : m = k
    · subst hk
      refine h1.subset ?_
      show _ ∈ s.slots ++ [_]
      simp
    · exact h8 m (by omega) (by omega)

/-! ### encodings -/

/-- what clauses of a constraint have to satisfy -/
structure EncOk (k k' : Nat) (cs : List (Enc.Clause α)) (f : Fm α) : Prop where
  le : k ≤ k'
  vars : ∀ c ∈ cs, ∀ l ∈ c, ∀ n, l.var = .aux n → k ≤ n ∧ n < k'
  sound : ∀ w : Enc.EV α → Bool, Enc.Sat w cs → f.eval (fun a => w (.usr a)) = true
  complete : ∀ (v : α → Bool) (g : Nat → Bool), f.eval v = true → ∃ w : Enc.EV α → Bool, (∀ a, w (.usr a) = v a) ∧ (∀ n, ¬(k ≤ n ∧ n < k') → w (.aux n) = g n) ∧ Enc.Sat w cs

omit [DecidableEq α] in
theorem encOk_of {k k' : Nat} {cs : List (Enc.Clause α)} {f : Fm α} {vs : List α} (h : Enc.Encodes vs k k' cs (fun v => f.eval v = true)) (hk : k ≤ k') : EncOk k k' cs f :=
  ⟨hk, fun c hc l hl n e => by
    rcases h.vars c hc l hl with ⟨a, _, e'⟩ | ⟨m, e', h1, h2⟩
    · rw [e] at e'; cases e'
    · rw [e] at e'; cases e'; exact ⟨h1, h2⟩, h.sound, h.complete⟩

theorem enc_spec {slots : List (Slot α)} {cache : List (Fm α × Entry)} {Γ : List (List Nat)} {F : List (Fm α)} {k k' : Nat} {f : Fm α} {cs : List (Enc.Clause α)} (h : Sem slots Γ F k)
    (hc : COk Γ slots cache) (he : EncOk k k' cs f) : ∀ s', s' = addClauses cs (newAux k (k' - k) ⟨slots, cache, []⟩) →
    slots <+: s'.slots ∧ Sem s'.slots (Γ ++ clsOf s'.ops) (F ++ [f]) k' ∧ COk (Γ ++ clsOf s'.ops) s'.slots s'.cache ∧ Bal slots.length s' := by
  intro s' hs'
  obtain ⟨h1, h2, h3, h4, h5, h6, h7, h8⟩ := newAux_spec (k' - k) k ⟨slots, cache, []⟩ (h.wf cache) hc h.aux
  generalize newAux k (k' - k) ⟨slots, cache, []⟩ = s1 at *
  have hle := he.le
  obtain ⟨a1, a2⟩ := addClauses_spec (N := 0) (cs := cs) h4 h5 fun c hc l hl n e => by
    obtain ⟨b1, b2⟩ := he.vars c hc l hl n e
    rw [e]; exact h8 n b1 (by omega)
  rw [← hs'] at a1 a2
  have hp : slots <+: s'.slots := h1.trans a1.slots
  have hmod : ∀ u w, AgreeE s'.slots w u → (Models (clsOf s'.ops) u ↔ Enc.Sat w cs) := fun u w ha => by
    rw [a2 u w ha, h3]
    exact ⟨fun h => h.2, fun h => ⟨fun c hc => (by cases hc), h⟩⟩
  refine ⟨hp, ⟨a1.wf.rng, a1.wf.nodup, fun n hn => by have := h7 n (a1.aux n hn); omega, fun u v hu ha g hg => ?_, fun v hv => ?_⟩, a1.cache.rebase, a1.bal _ (h6 _ ⟨fun o ho => (by cases ho), rfl⟩)⟩
  · rcases List.mem_append.1 hg with hg | hg
    · exact h.sound u v (fun c hc => hu c (List.mem_append_left _ hc)) (ha.mono hp) g hg
    · rw [List.mem_singleton.1 hg]
      exact he.sound _ ((hmod u _ (valOf_agree a1.wf.nodup ha)).1 fun c hc => hu c (List.mem_append_right _ hc))
  · obtain ⟨u, u1, u2, u3⟩ := h.complete v fun g hg => hv g (List.mem_append_left _ hg)
    obtain ⟨w, w1, w2, w3⟩ := he.complete v (fun n => valOf slots v u (.aux n)) (hv f (by simp))
    have hag : AgreeE slots w u := by
      intro i e hi
      rw [valOf_agree h.nodup u1 i e hi]
      cases e with
      | usr x => exact (w1 x).symm
      | aux n =>
        have := h.aux n (List.mem_of_getElem? hi)
        exact (w2 n (by omega)).symm
    have b1 := extend_agreeE (v := v) hp hag
    refine ⟨_, fun i x hi => (b1 i _ hi).trans (w1 x), extend_fits hp u2, fun c hcm => ?_⟩
    rcases List.mem_append.1 hcm with hcm | hcm
    · exact models_congr h.rng (fun i hi => (extend_old hi).symm) u3 c hcm
    · exact (hmod _ w b1).2 w3 c hcm

/-! ### formulas in CNF -/

omit [DecidableEq α] in
theorem clsLits_eval {f : Fm α} (h : Spec.isClause f = true) (v : α → Bool) : f.eval v = true ↔ ∃ l ∈ clsLits f, l.eval v = true := by
  cases f with
  | lit l => simp [clsLits]
  | or fs =>
    simp only [Spec.isClause, List.all_eq_true] at h
    rw [Fm.eval_or, List.any_eq_true]
    constructor
    · rintro ⟨g, hg, hv⟩
      have := h g hg
      cases g with
      | lit l => exact ⟨l, List.mem_filterMap.2 ⟨_, hg, rfl⟩, by simpa using hv⟩
      | _ => simp [Spec.isLit] at this
    · rintro ⟨l, hl, hv⟩
      obtain ⟨g, hg, e⟩ := List.mem_filterMap.1 hl
      cases g with
      | lit l' => cases e; exact ⟨_, hg, by simpa using hv⟩
      | _ => cases e
  | _ => simp [Spec.isClause] at h

omit [DecidableEq α] in
theorem cnfClauses_sat {srt : List (Lit α) → List (Lit α)} (hs : ∀ ls l, l ∈ srt ls ↔ l ∈ ls) {f : Fm α} (h : Spec.isCNF f = true) (w : Enc.EV α → Bool) :
    Enc.Sat w (cnfClauses srt f) ↔ f.eval (fun a => w (.usr a)) = true := by
  have one : ∀ g : Fm α, Spec.isClause g = true → ((∃ l ∈ (srt (clsLits g)).map usr, l.eval w = true) ↔ g.eval (fun a => w (.usr a)) = true) := by
    intro g hg
    rw [clsLits_eval hg]
    constructor
    · rintro ⟨l, hl, hv⟩
      obtain ⟨m, hm, rfl⟩ := List.mem_map.1 hl
      exact ⟨m, (hs _ _).1 hm, hv⟩
    · rintro ⟨m, hm, hv⟩
      exact ⟨usr m, List.mem_map.2 ⟨m, (hs _ _).2 hm, rfl⟩, hv⟩
  cases f with
  | tru => simp [cnfClauses]
  | fls =>
    have : srt ([] : List (Lit α)) = [] := List.eq_nil_iff_forall_not_mem.2 fun l hl => by have := (hs _ _).1 hl; cases this
    simp [cnfClauses, clsLits, this, Enc.Sat]
  | and fs =>
    simp only [Spec.isCNF, List.all_eq_true] at h
    rw [show cnfClauses srt (.and fs) = fs.map fun f => (srt (clsLits f)).map usr from rfl, Enc.sat_map, Fm.eval_and, List.all_eq_true]
    exact forall_congr' fun g => forall_congr' fun hg => one g (h g hg)
  | lit l => simpa [cnfClauses, Enc.Sat] using one (.lit l) h
  | or fs => simpa [cnfClauses, Enc.Sat] using one (.or fs) h
  | _ => simp [Spec.isCNF, Spec.isClause] at h

omit [DecidableEq α] in
theorem cnf_encOk {srt : List (Lit α) → List (Lit α)} (hs : ∀ ls l, l ∈ srt ls ↔ l ∈ ls) {f : Fm α} (h : Spec.isCNF f = true) (k : Nat) : EncOk k k (cnfClauses srt f) f := by
  refine ⟨Nat.le_refl _, fun c hc l hl n e => ?_, fun w hw => (cnfClauses_sat hs h w).1 hw, fun v g hv => ⟨fun | .usr a => v a | .aux n => g n, fun _ => rfl, fun _ _ => rfl, (cnfClauses_sat hs h _).2 hv⟩⟩
  exfalso
  have key : ∃ m, l = usr m := by
    cases f with
    | tru => cases hc
    | and fs =>
      obtain ⟨g, _, rfl⟩ := List.mem_map.1 hc
      obtain ⟨m, _, rfl⟩ := List.mem_map.1 hl
      exact ⟨m, rfl⟩
    | _ =>
      rw [List.mem_singleton.1 hc] at hl
      obtain ⟨m, _, rfl⟩ := List.mem_map.1 hl
      exact ⟨m, rfl⟩
  obtain ⟨m, rfl⟩ := key
  cases e

/-! ### adding a formula -/

/-- The conditions on a formula that is added: the variables of a constraint that becomes an at-most clause are distinct (see `C18`); the clauses of a constraint and those of the method `CNFFactory` encode the formula (C09–C14); otherwise there are no
constraints inside the formula. -/
def Addable (E : Env α) (f : Fm α) : Prop :=
  match amPart E f with
  | some (xs, _, _) => xs.Nodup ∧ (E.srt (poss xs)).Nodup
  | none =>
    if encTop E f then ∀ k, EncOk k (E.enc f k).2 (E.enc f k).1 f
    else if E.nnf = none then ∀ k, EncOk k (E.cnf f k).2 (E.cnf f k).1 f
    else f.pbFree = true

/-- clauses are added one by one -/
def PS.adds (s : PS α) (cs : List (List Nat)) : PS α := cs.foldl PS.add s

omit [DecidableEq α] in
theorem adds_slots : ∀ (cs : List (List Nat)) (s : PS α), (s.adds cs).slots = s.slots ∧ (s.adds cs).cache = s.cache ∧ clsOf (s.adds cs).ops = clsOf s.ops ++ cs
  | [], s => ⟨rfl, rfl, by simp [PS.adds]⟩
  | c :: cs, s => by
    obtain ⟨h1, h2, h3⟩ := adds_slots cs (s.add c)
    refine ⟨h1, h2, ?_⟩
    show clsOf ((s.add c).adds cs).ops = _
    rw [h3]
    show clsOf (s.ops ++ [.add c]) ++ cs = _
    rw [clsOf_add]; simp

theorem Step.adds {P : Fm α → Prop} {Γ : List (List Nat)} {N : Nat} {s : PS α} : ∀ {cs : List (List Nat)} {s' : PS α}, Step P Γ N s s' → (∀ c ∈ cs, ∀ l ∈ c, l / 2 < s'.slots.length) →
    Step P Γ N s (s'.adds cs)
  | [], _, h, _ => h
  | c :: cs, s', h, hc => Step.adds (cs := cs) (h.add (hc c List.mem_cons_self)) fun d hd => hc d (List.mem_cons_of_mem _ hd)

/-- the literals of a clause vector, one by one -/
theorem clauseVec_lits {P : Fm α → Prop} {Γ : List (List Nat)} : ∀ {c : List (Lit (Enc.EV α))} {s : PS α}, WF Γ s → CacheOk P Γ s → (∀ l ∈ c, ∀ n, l.var = .aux n → Slot.name l.var ∈ s.slots) →
    List.Forall₂ (fun x l => ∃ i, (clauseVec c s).2.slots[i]? = some (.name l.var) ∧ x = slit i l.pos) (clauseVec c s).1 c
  | [], s, _, _, _ => .nil
  | l :: ls, s, hw, hc, hl => by
    obtain ⟨h1, h2⟩ := solverLit_spec (N := 0) hw hc l (hl l List.mem_cons_self)
    rw [clauseVec]
    generalize solverLit l s = p at h1 h2
    obtain ⟨x, s1⟩ := p
    dsimp only at h1 h2 ⊢
    have hn : ∀ m ∈ ls, ∀ n, m.var = .aux n → Slot.name m.var ∈ s1.slots := fun m hm n e => h2.slots.subset (hl m (List.mem_cons_of_mem _ hm) n e)
    have a1 := (clauseVec_spec (N := 0) (c := ls) h2.wf h2.cache hn).1
    have ih := clauseVec_lits (c := ls) h2.wf h2.cache hn
    generalize clauseVec ls s1 = p at a1 ih
    obtain ⟨xs, s2⟩ := p
    dsimp only at a1 ih ⊢
    refine .cons ?_ ih
    obtain ⟨i, hi, e⟩ := h1.var
    exact ⟨i, getElem_prefix a1.slots hi, e⟩

theorem forall2_idx {slots : List (Slot α)} (hn : ∀ (i j : Nat) e, slots[i]? = some (.name e) → slots[j]? = some (.name e) → i = j) {c : List Nat} {ls : List (Lit α)}
    (h : List.Forall₂ (fun x l => ∃ i, slots[i]? = some (.name (Lit.var l)) ∧ x = slit i (Lit.pos l)) c (ls.map usr)) (hp : ∀ l ∈ ls, l.pos = true) (hd : ls.Nodup) :
    (c.map (· / 2)).Nodup ∧ (∀ x ∈ c, x % 2 = 0 ∧ x / 2 < slots.length) ∧ ∀ u v, Agree slots v u → ((c.map (· / 2)).filter u).length = (ls.filter (Lit.eval v)).length := by
  induction ls generalizing c with
  | nil =>
    cases h
    exact ⟨List.nodup_nil, fun _ h => (by cases h), fun _ _ _ => rfl⟩
  | cons l ls ih =>
    cases h with
    | @cons x _ xs _ h1 h2 =>
    obtain ⟨i, hi, rfl⟩ := h1
    rw [List.nodup_cons] at hd
    obtain ⟨a1, a2, a3⟩ := ih h2 (fun m hm => hp m (List.mem_cons_of_mem _ hm)) hd.2
    have hlp : (usr l).pos = true := hp l List.mem_cons_self
    rw [hlp]
    refine ⟨?_, fun y hy => ?_, fun u v ha => ?_⟩
    · rw [List.map_cons, slit_div, List.nodup_cons]
      refine ⟨fun hm => ?_, a1⟩
      obtain ⟨y, hy, rfl⟩ := List.mem_map.1 hm
      obtain ⟨m, hm, j, hj, e⟩ : ∃ m ∈ ls, ∃ j, slots[j]? = some (.name (usr m).var) ∧ y = slit j (usr m).pos := by
        clear ih a1 a2 a3 hd
        induction ls generalizing xs with
        | nil => cases h2; cases hy
        | cons m ls ih2 =>
          cases h2 with
          | @cons z _ zs _ g1 g2 =>
          rcases List.mem_cons.1 hy with e | hy
          · subst e
            obtain ⟨j, hj, e⟩ := g1
            exact ⟨m, List.mem_cons_self, j, hj, e⟩
          · have := ih2 (fun q hq => by
              rcases List.mem_cons.1 hq with rfl | hq
              · exact hp _ List.mem_cons_self
              · exact hp _ (List.mem_cons_of_mem _ (List.mem_cons_of_mem _ hq))) g2 hy (List.mem_map_of_mem hy)
            obtain ⟨m', hm', r⟩ := this
            exact ⟨m', List.mem_cons_of_mem _ hm', r⟩
      rw [e, slit_div] at hi
      rw [hi] at hj
      injection hj with hj
      injection hj with hj
      have hv : l.var = m.var := by
        have : Enc.EV.usr l.var = Enc.EV.usr m.var := hj
        injection this
      have hmp := hp m (List.mem_cons_of_mem _ hm)
      have hlp' := hp l List.mem_cons_self
      have : l = m := by
        cases l; cases m
        dsimp only at hv hmp hlp'
        rw [hv, hmp, hlp']
      exact hd.1 (this ▸ hm)
    · rcases List.mem_cons.1 hy with rfl | hy
      · rw [slit_div]
        exact ⟨slit_mod i, (List.getElem?_eq_some_iff.1 hi).1⟩
      · exact a2 y hy
    · have := a3 u v ha
      have hu : u i = l.eval v := by
        rw [ha i l.var hi]
        unfold Lit.eval
        rw [if_pos (hp l List.mem_cons_self)]
      rw [List.map_cons, slit_div, List.filter_cons, List.filter_cons, hu]
      split
      · simp [this]
      · exact this

omit [DecidableEq α] in
theorem filter_poss (v : α → Bool) (xs : List α) : (((poss xs).filter (Lit.eval v)).length : Int) = cntTrue v xs := by
  induction xs with
  | nil => rfl
  | cons x xs ih =>
    unfold poss at ih ⊢
    rw [List.map_cons, List.filter_cons, cntTrue, ← ih]
    have : (⟨x, true⟩ : Lit α).eval v = v x := by simp [Lit.eval]
    rw [this]
    cases v x <;> simp
    omega

omit [DecidableEq α] in
/-- the meaning of the constraints that become at-most clauses -/
theorem atMostOf_eval {f : Fm α} {xs : List α} {r : Int} {b : Bool} (h : atMostOf f = some (xs, r, b)) (v : α → Bool) :
    f.eval v = true ↔ cntTrue v xs ≤ r ∧ (b = true → ∃ x ∈ xs, v x = true) := by
  have hex : ∀ xs : List α, (∃ x ∈ xs, v x = true) ↔ 1 ≤ cntTrue v xs := by
    intro xs
    induction xs with
    | nil => simp [cntTrue]
    | cons x xs ih =>
      have h0 : ∀ ys : List α, 0 ≤ cntTrue v ys := by
        intro ys
        induction ys with
        | nil => simp [cntTrue]
        | cons y ys ih => unfold cntTrue; split <;> omega
      have := h0 xs
      simp only [List.mem_cons, exists_eq_or_imp, ih, cntTrue]
      cases v x <;> simp
      omega
  unfold atMostOf at h
  split at h
  · cases h
    simp [Fm.eval, Cmp.holds]
  · split at h
    · cases h
      simp only [Fm.eval, Cmp.holds, decide_eq_true_eq]
      simp
      omega
    · cases h
  · split at h
    · cases h
      rename_i hk
      rw [hex]
      simp only [Fm.eval, Cmp.holds, decide_eq_true_eq]
      simp
      omega
    · cases h
  · cases h

theorem atMost_spec {E : Env α} (hE : ∀ ls l, l ∈ E.srt ls ↔ l ∈ ls) {slots : List (Slot α)} {cache : List (Fm α × Entry)} {Γ : List (List Nat)} {F : List (Fm α)} {k : Nat} {f : Fm α}
    {xs : List α} {r : Int} {b : Bool} (hf : atMostOf f = some (xs, r, b)) (hx : xs.Nodup) (hsx : (E.srt (poss xs)).Nodup) (h : Sem slots Γ F k) (hc : COk Γ slots cache) {s1 s' : PS α} {c : List Nat}
    (h1 : clauseVec ((E.srt (poss xs)).map usr) ⟨slots, cache, []⟩ = (c, s1)) (he : s' = if b then (s1.addAm c r).add c else s1.addAm c r) :
    slots <+: s'.slots ∧ Sem s'.slots (Γ ++ clsOf s'.ops) (F ++ [f]) k ∧ COk (Γ ++ clsOf s'.ops) s'.slots s'.cache ∧ BalM true slots.length s' := by
  have hna : ∀ l ∈ (E.srt (poss xs)).map usr, ∀ n, l.var = .aux n → Slot.name l.var ∈ (PS.mk slots cache []).slots := fun l hl n e => by
    obtain ⟨m, _, rfl⟩ := List.mem_map.1 hl
    cases e
  obtain ⟨a1, a2, a3, a4⟩ := clauseVec_spec (N := 0) (h.wf cache) hc hna
  have hfo := clauseVec_lits (h.wf cache) hc hna
  rw [h1] at a1 a2 a3 a4 hfo
  dsimp only at a1 a2 a3 a4 hfo
  have hpp : ∀ l ∈ E.srt (poss xs), l.pos = true := by
    intro l hl
    obtain ⟨x, _, rfl⟩ := List.mem_map.1 ((hE _ _).1 hl)
    rfl
  obtain ⟨b1, b2, b3⟩ := forall2_idx a1.wf.nodup hfo hpp hsx
  have hperm : (E.srt (poss xs)).Perm (poss xs) := by
    refine (List.perm_ext_iff_of_nodup hsx ?_).2 (hE _)
    exact hx.map_on fun x _ y _ e => by injection e
  have hcnt : ∀ u v, Agree s1.slots v u → (((c.map (· / 2)).filter u).length : Int) = cntTrue v xs := by
    intro u v ha
    rw [b3 u v ha, (hperm.filter _).length_eq, filter_poss]
  have hsat : ∀ u v, Agree s1.slots v u → (Sat.Sat u c ↔ ∃ x ∈ xs, v x = true) := by
    intro u v ha
    rw [sat_map_iff (a4 u (valOf s1.slots v u) (valOf_agree a1.wf.nodup ha))]
    constructor
    · rintro ⟨l, hl, hv⟩
      obtain ⟨m, hm, rfl⟩ := List.mem_map.1 hl
      obtain ⟨x, hx, rfl⟩ := List.mem_map.1 ((hE _ _).1 hm)
      exact ⟨x, hx, by simpa [usr, Lit.eval, valOf] using hv⟩
    · rintro ⟨x, hx, hv⟩
      exact ⟨_, List.mem_map_of_mem ((hE _ _).2 (List.mem_map_of_mem hx)), by simpa [usr, Lit.eval, valOf] using hv⟩
  obtain ⟨cs, hcs⟩ : ∃ cs, cs = Sat.amCnf (c.map (· / 2)) r ++ (if b then [c] else []) := ⟨_, rfl⟩
  have hmod : ∀ u v, Agree s1.slots v u → (Models cs u ↔ f.eval v = true) := by
    intro u v ha
    rw [hcs, ← Sat.models_append', Sat.models_amCnf, hcnt u v ha, atMostOf_eval hf]
    refine and_congr_right fun _ => ?_
    cases b with
    | false => simp [Models]
    | true => simpa [Models] using hsat u v ha
  have hrng : ∀ d ∈ cs, ∀ l ∈ d, l / 2 < s1.slots.length := by
    intro d hd l hl
    rw [hcs] at hd
    rcases List.mem_append.1 hd with hd | hd
    · unfold Sat.amCnf at hd
      split at hd
      · rw [List.mem_singleton.1 hd] at hl; cases hl
      · obtain ⟨t, ht, rfl⟩ := List.mem_map.1 hd
        obtain ⟨y, hy, rfl⟩ := List.mem_map.1 hl
        obtain ⟨z, hz, rfl⟩ := List.mem_map.1 ((List.mem_sublistsLen.1 ht).1.subset hy)
        have := (b2 z hz).2
        omega
    · cases b with
      | false => simp at hd
      | true =>
        rw [if_pos rfl] at hd
        rw [List.mem_singleton.1 hd] at hl
        exact a3 l hl
  have hst := a1.adds hrng
  obtain ⟨d1, d2, d3⟩ := adds_slots cs s1
  have hcl : clsOf s'.ops = clsOf (s1.adds cs).ops := by
    rw [d3, hcs, he]
    cases b with
    | false =>
      show clsOf (s1.ops ++ [.atMost _ _]) = _
      simp [clsOf, clsOf1]
    | true =>
      show clsOf (s1.ops ++ [.atMost _ _] ++ [.add c]) = _
      simp [clsOf, clsOf1]
  have hsl : s'.slots = s1.slots := by rw [he]; cases b <;> rfl
  have hca : s'.cache = s1.cache := by rw [he]; cases b <;> rfl
  have hsem := h.step (f := f) hst (fun u v ha _ hv _ => by
      rw [d1] at ha
      rw [d3, a2]
      exact (hmod u v ha).2 hv) (fun u v hu ha => by
      rw [d1] at ha
      refine (hmod u v ha).1 fun d hd => hu d ?_
      rw [d3]
      exact List.mem_append_right _ (List.mem_append_right _ hd))
  rw [hcl, hsl, hca]
  refine ⟨a1.slots, by rw [← d1]; exact hsem, ?_, ?_⟩
  · have := hst.cache.rebase
    rw [d1, d2] at this
    exact this
  · have hb : Bal slots.length s1 := a1.bal _ ⟨fun o ho => (by cases ho), rfl⟩
    refine ⟨fun o ho => ?_, ?_⟩
    · have : o ∈ s1.ops ∨ o = .atMost (c.map (· / 2)) r ∨ o = .add c := by
        rw [he] at ho
        cases b with
        | false =>
          have ho : o ∈ s1.ops ++ [.atMost (c.map (· / 2)) r] := ho
          simp only [List.mem_append, List.mem_singleton] at ho
          exact ho.imp id Or.inl
        | true =>
          have ho : o ∈ s1.ops ++ [.atMost (c.map (· / 2)) r] ++ [.add c] := ho
          simpa [or_assoc] using ho
      rcases this with h | h | h
      · exact (hb.1 o h).imp id Or.inl
      · exact .inr (.inr ⟨rfl, _, _, h, b1⟩)
      · exact .inr (.inl ⟨_, h⟩)
    · rw [hsl, hb.2, he]
      cases b with
      | false =>
        show _ = _ + (s1.ops ++ [Sat.Op.atMost _ _]).countP isNew
        rw [List.countP_append]; simp [isNew]
      | true =>
        show _ = _ + (s1.ops ++ [Sat.Op.atMost _ _] ++ [Sat.Op.add c]).countP isNew
        rw [List.countP_append, List.countP_append]; simp [isNew]

theorem addFormula_spec {E : Env α} (hE : ∀ ls l, l ∈ E.srt ls ↔ l ∈ ls) {slots : List (Slot α)} {cache : List (Fm α × Entry)} {Γ : List (List Nat)} {F : List (Fm α)} {k k' : Nat} {f : Fm α}
    (hf : Addable E f) (h : Sem slots Γ F k) (hc : COk Γ slots cache) {s' : PS α} (he : addFormula E f k ⟨slots, cache, []⟩ = some (s', k')) :
    k ≤ k' ∧ slots <+: s'.slots ∧ Sem s'.slots (Γ ++ clsOf s'.ops) (F ++ [f]) k' ∧ COk (Γ ++ clsOf s'.ops) s'.slots s'.cache ∧ BalM E.atMost slots.length s' := by
  unfold addFormula at he
  unfold Addable at hf
  cases ham : amPart E f with
  | some x =>
    obtain ⟨xs, r, b⟩ := x
    rw [ham] at he hf
    dsimp only at he hf
    have hat : E.atMost = true ∧ atMostOf f = some (xs, r, b) := by
      unfold amPart at ham
      split at ham
      · exact ⟨by assumption, ham⟩
      · cases ham
    cases h1 : clauseVec ((E.srt (poss xs)).map usr) ⟨slots, cache, []⟩ with
    | mk c s1 =>
    rw [h1] at he
    dsimp only at he
    injection he with he
    injection he with e1 e2
    subst e2
    rw [hat.1]
    exact ⟨Nat.le_refl _, atMost_spec hE hat.2 hf.1 hf.2 h hc h1 e1.symm⟩
  | none =>
  rw [ham] at he hf
  dsimp only at he hf
  by_cases hp : encTop E f = true
  · rw [if_pos hp] at he hf
    have hf := hf k
    cases he
    have := enc_spec h hc hf _ rfl
    exact ⟨hf.le, this.1, this.2.1, this.2.2.1, this.2.2.2.toM⟩
  · rw [if_neg hp] at he hf
    cases hn : E.nnf with
    | none =>
      rw [hn] at he
      rw [if_pos hn] at hf
      have hf := hf k
      cases he
      have := enc_spec h hc hf _ rfl
      exact ⟨hf.le, this.1, this.2.1, this.2.2.1, this.2.2.2.toM⟩
    | some b =>
      rw [hn] at he
      rw [if_neg (by rw [hn]; simp)] at hf
      dsimp only at he
      cases ha : addCNFToSolver E b f ⟨slots, cache, []⟩ with
      | none => rw [ha] at he; cases he
      | some s1 =>
        rw [ha] at he
        cases he
        refine ⟨Nat.le_refl _, ?_⟩
        unfold addCNFToSolver at ha
        have hge : Fm.Equivalent (if (b || !f.pbFree) = true then NF.nnf E.cons E.encF f true else f) f := by
          split
          · exact NF.C08_nnf_equivalent _ _ f hf
          · exact fun _ => rfl
        dsimp only at ha
        generalize (if (b || !f.pbFree) = true then NF.nnf E.cons E.encF f true else f) = g at ha hge
        have conv : ∀ {s : PS α}, Sem s.slots (Γ ++ clsOf s.ops) (F ++ [g]) k → Sem s.slots (Γ ++ clsOf s.ops) (F ++ [f]) k := by
          intro s hs
          refine ⟨hs.rng, hs.nodup, hs.aux, fun u v hu ha x hx => ?_, fun v hv => hs.complete v fun x hx => ?_⟩
          · rcases List.mem_append.1 hx with hx | hx
            · exact hs.sound u v hu ha x (List.mem_append_left _ hx)
            · rw [List.mem_singleton.1 hx, ← hge v]; exact hs.sound u v hu ha g (by simp)
          · rcases List.mem_append.1 hx with hx | hx
            · exact hv x (List.mem_append_left _ hx)
            · rw [List.mem_singleton.1 hx, hge v]; exact hv f (by simp)
        by_cases hcnf : Spec.isCNF g = true
        · rw [if_pos hcnf] at ha
          cases ha
          have := enc_spec h hc (cnf_encOk hE hcnf k) _ rfl
          rw [Nat.sub_self, newAux_zero] at this
          exact ⟨this.1, conv this.2.1, this.2.2.1, this.2.2.2.toM⟩
        · rw [if_neg hcnf] at ha
          cases hg : pg g true true ⟨slots, cache, []⟩ with
          | none => rw [hg] at ha; cases ha
          | some x =>
            obtain ⟨D, s2⟩ := x
            rw [hg] at ha
            cases ha
            have r := pg_spec g (h.wf cache) (fun _ h => h.elim) hc hg
            have t := r.step.addNonNil r.rng
            have cm := (r.compl.weaken (L := fun v => g.eval v = true) fun v hv _ => hv).addNonNil (D := D) fun u v ha hf hk => r.dcompl u v ha hf hk
            refine ⟨t.slots, conv (h.step t cm fun u v hu ha => ?_), t.cache.rebase, (t.bal _ ⟨fun o ho => (by cases ho), rfl⟩).toM⟩
            obtain ⟨b1, b2⟩ := models_addNonNil hu
            rw [addNonNil_slots] at ha
            exact r.sound u v b1 ha b2

/-! ### no panic -/

mutual
/-- no constants and no constraints -/
def pgOk : Fm α → Bool
  | .lit _ => true
  | .not f => pgOk f
  | .and fs => pgOkL fs
  | .or fs => pgOkL fs
  | .impl a b => pgOk a && pgOk b
  | .equiv a b => pgOk a && pgOk b
  | _ => false
def pgOkL : List (Fm α) → Bool
  | [] => true
  | f :: fs => pgOk f && pgOkL fs
end

omit [DecidableEq α] in
theorem pgOkL_eq (fs : List (Fm α)) : pgOkL fs = fs.all pgOk := by
  induction fs with
  | nil => rfl
  | cons f fs ih => simp [pgOkL, ih]

theorem pgTop_total : ∀ {fs : List (Fm α)}, (∀ f ∈ fs, ∀ pol top s, (pg f pol top s).isSome) → ∀ pol s, (pgTop fs pol s).isSome
  | [], _, _, _ => by rw [pgTop]; rfl
  | f :: fs, h, pol, s => by
    rw [pgTop]
    obtain ⟨x, hx⟩ := Option.isSome_iff_exists.1 (h f List.mem_cons_self pol true s)
    rw [hx]
    exact pgTop_total (fun g hg => h g (List.mem_cons_of_mem _ hg)) _ _
theorem pgDef_total : ∀ {fs : List (Fm α)}, (∀ f ∈ fs, ∀ pol top s, (pg f pol top s).isSome) → ∀ pol x s, (pgDef fs pol x s).isSome
  | [], _, _, _, _ => by rw [pgDef]; rfl
  | f :: fs, h, pol, x, s => by
    rw [pgDef]
    obtain ⟨x, hx⟩ := Option.isSome_iff_exists.1 (h f List.mem_cons_self pol false s)
    rw [hx]
    exact pgDef_total (fun g hg => h g (List.mem_cons_of_mem _ hg)) _ _ _
theorem pgOne_total : ∀ {fs : List (Fm α)}, (∀ f ∈ fs, ∀ pol top s, (pg f pol top s).isSome) → ∀ pol s, (pgOne fs pol s).isSome
  | [], _, _, _ => by rw [pgOne]; rfl
  | f :: fs, h, pol, s => by
    rw [pgOne]
    obtain ⟨x, hx⟩ := Option.isSome_iff_exists.1 (h f List.mem_cons_self pol false s)
    rw [hx]
    dsimp only
    obtain ⟨y, hy⟩ := Option.isSome_iff_exists.1 (pgOne_total (fun g hg => h g (List.mem_cons_of_mem _ hg)) pol x.2)
    rw [hy]; rfl
omit [DecidableEq α] in
theorem equivOps_total {A B : Bool → PS α → Option (Option (List Nat) × PS α)} (hA : ∀ p s, (A p s).isSome) (hB : ∀ p s, (B p s).isSome) (s : PS α) : (equivOps A B s).isSome := by
  unfold equivOps
  obtain ⟨a, ha⟩ := Option.isSome_iff_exists.1 (hA true s)
  rw [ha]; dsimp only
  obtain ⟨b, hb⟩ := Option.isSome_iff_exists.1 (hA false a.2)
  rw [hb]; dsimp only
  obtain ⟨c, hc⟩ := Option.isSome_iff_exists.1 (hB true b.2)
  rw [hc]; dsimp only
  obtain ⟨d, hd⟩ := Option.isSome_iff_exists.1 (hB false c.2)
  rw [hd]; rfl

theorem pg_total (f : Fm α) : pgOk f = true → ∀ pol top s, (pg f pol top s).isSome := by
  induction f using Fm.ind with
  | hl l => intro _ pol top s; rw [pg]; rfl
  | hn f ih => intro h pol top s; rw [pg]; exact ih (by simpa [pgOk] using h) _ _ _
  | ha fs ih =>
    intro h pol top s
    have h : ∀ f ∈ fs, pgOk f = true := by simpa [pgOk, pgOkL_eq] using h
    have ih := fun f hf => ih f hf (h f hf)
    rw [pg]
    split
    · split
      · rw [Option.isSome_map]; exact pgTop_total ih _ _
      · dsimp only
        split
        · rfl
        · rw [Option.isSome_map]; exact pgDef_total ih _ _ _
    · rw [Option.isSome_map]; exact pgOne_total ih _ _
  | ho fs ih =>
    intro h pol top s
    have h : ∀ f ∈ fs, pgOk f = true := by simpa [pgOk, pgOkL_eq] using h
    have ih := fun f hf => ih f hf (h f hf)
    rw [pg]
    split
    · rw [Option.isSome_map]; exact pgOne_total ih _ _
    · split
      · rw [Option.isSome_map]; exact pgTop_total ih _ _
      · dsimp only
        split
        · rfl
        · rw [Option.isSome_map]; exact pgDef_total ih _ _ _
  | hi a b iha ihb =>
    intro h pol top s
    have h : pgOk a = true ∧ pgOk b = true := by simpa [pgOk] using h
    rw [pg]
    split
    · obtain ⟨x, hx⟩ := Option.isSome_iff_exists.1 (iha h.1 false false s)
      rw [hx]; dsimp only
      obtain ⟨y, hy⟩ := Option.isSome_iff_exists.1 (ihb h.2 true false x.2)
      rw [hy]; rfl
    · split
      · obtain ⟨x, hx⟩ := Option.isSome_iff_exists.1 (iha h.1 true true s)
        rw [hx]; dsimp only
        obtain ⟨y, hy⟩ := Option.isSome_iff_exists.1 (ihb h.2 false true x.2)
        rw [hy]; rfl
      · dsimp only
        split
        · rfl
        · obtain ⟨x, hx⟩ := Option.isSome_iff_exists.1 (iha h.1 true false (getPGVar (a.impl b) false s).2.2)
          rw [hx]; dsimp only
          obtain ⟨y, hy⟩ := Option.isSome_iff_exists.1 (ihb h.2 false false x.2)
          rw [hy]; rfl
  | he a b iha ihb =>
    intro h pol top s
    have h : pgOk a = true ∧ pgOk b = true := by simpa [pgOk] using h
    have hq := fun s => equivOps_total (A := fun p s => pg a p false s) (B := fun p s => pg b p false s) (fun p s => iha h.1 p false s) (fun p s => ihb h.2 p false s) s
    rw [pg]
    split
    · obtain ⟨x, hx⟩ := Option.isSome_iff_exists.1 (hq s)
      rw [hx]; dsimp only
      split <;> rfl
    · dsimp only
      split
      · rfl
      · obtain ⟨x, hx⟩ := Option.isSome_iff_exists.1 (hq (getPGVar (a.equiv b) pol s).2.2)
        rw [hx]; dsimp only
        split <;> rfl
  | _ => intro h; simp [pgOk] at h

omit [DecidableEq α] in
theorem core_pgOk (f : Fm α) : NF.core f = true → pgOk f = true := by
  induction f using Fm.ind with
  | hl l => simp [pgOk]
  | ha fs ih =>
    simp only [NF.core_and, Bool.and_eq_true, List.all_eq_true, pgOk, pgOkL_eq]
    exact fun h f hf => ih f hf (h.2 f hf)
  | ho fs ih =>
    simp only [NF.core_or, Bool.and_eq_true, List.all_eq_true, pgOk, pgOkL_eq]
    exact fun h f hf => ih f hf (h.2 f hf)
  | _ => simp [NF.core]

/-- adding does not panic: the formula is a constraint, the CNF comes from the factory, the NNF is taken, or there are no constants inside -/
theorem addFormula_total (E : Env α) (f : Fm α) (hf : encTop E f = true ∨ E.nnf = none ∨ f.pbFree = true ∧ (E.nnf = some true ∨ f = .tru ∨ f = .fls ∨ pgOk f = true)) (k : Nat) (s : PS α) :
    (addFormula E f k s).isSome := by
  unfold addFormula
  split
  · rfl
  split
  · rfl
  rename_i hp
  cases hn : E.nnf with
  | none => rfl
  | some b =>
    dsimp only
    rw [Option.isSome_map]
    rcases hf with h | h | ⟨h1, h2⟩
    · exact absurd h hp
    · rw [hn] at h; cases h
    · rw [hn] at h2
      unfold addCNFToSolver
      dsimp only
      generalize hg : (if (b || !f.pbFree) = true then NF.nnf E.cons E.encF f true else f) = g
      have hgo : g = .tru ∨ g = .fls ∨ pgOk g = true := by
        rw [h1] at hg
        cases b with
        | true =>
          rw [if_pos (by simp)] at hg
          rw [← hg]
          exact (NF.nnf_pbFree_core f h1 true).imp id (Or.imp id (core_pgOk _))
        | false =>
          rw [if_neg (by simp)] at hg
          rw [← hg]
          exact h2.resolve_left (by simp)
      split
      · rfl
      · rename_i hc
        have hok : pgOk g = true := by
          rcases hgo with rfl | rfl | h
          · exact absurd rfl hc
          · exact absurd rfl hc
          · exact h
        obtain ⟨x, hx⟩ := Option.isSome_iff_exists.1 (pg_total g hok true true s)
        rw [hx]; rfl

end Verif.Solver
