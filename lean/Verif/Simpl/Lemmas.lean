import Verif.Simpl.Model
import Verif.NormalForm.Cond
import Verif.Factory.TreeShape
import Verif.Assignment.Props
/-! Lemmas for C36: the simplifiers which do not need a solver. -/
namespace Verif.Simpl
open Verif Verif.Tree
variable {α : Type} [DecidableEq α]

/-! ## operators -/

theorem nary_iff {cons d : Bool} {fs : List (Fm α)} {v : α → Bool} : (nary cons d fs).eval v = d ↔ ∀ f ∈ fs, f.eval v = d := by
  unfold nary
  cases d <;> simp
theorem nary_dual {cons d : Bool} {fs : List (Fm α)} {v : α → Bool} : (nary cons (!d) fs).eval v = d ↔ ∃ f ∈ fs, f.eval v = d := by
  unfold nary
  cases d <;> simp
omit [DecidableEq α] in
theorem opsOf_iff {d : Bool} {f : Fm α} {gs : List (Fm α)} (h : opsOf d f = some gs) {v : α → Bool} : f.eval v = d ↔ ∀ g ∈ gs, g.eval v = d := by
  cases f <;> simp [opsOf] at h <;> obtain ⟨rfl, rfl⟩ := h <;> simp
omit [DecidableEq α] in
theorem opsOf_dual {d : Bool} {f : Fm α} {gs : List (Fm α)} (h : opsOf (!d) f = some gs) {v : α → Bool} : f.eval v = d ↔ ∃ g ∈ gs, g.eval v = d := by
  cases f <;> simp [opsOf] at h <;> obtain ⟨h, rfl⟩ := h <;> cases d <;> simp at h ⊢
theorem bool_eq_of_iff {a b d : Bool} (h : a = d ↔ b = d) : a = b := by
  cases a <;> cases b <;> cases d <;> simp_all

/-! ## Distribute -/

/-- the pairs of the counting loop are operands with one of their parts -/
def PairsOk (d : Bool) (operands : List (Fm α)) (c : Cnt α) : Prop :=
  ∀ p ∈ c.pairs, p.2 ∈ operands ∧ ∃ parts, opsOf (!d) p.2 = some parts ∧ p.1 ∈ parts

theorem add_pairs {d : Bool} {operands : List (Fm α)} {op part : Fm α} {c : Cnt α} (h : PairsOk d operands c) (ho : op ∈ operands) {parts : List (Fm α)}
    (hp : opsOf (!d) op = some parts) (hm : part ∈ parts) : PairsOk d operands (c.add op part) := by
  have hpairs : (c.add op part).pairs = if (part, op) ∈ c.pairs then c.pairs else c.pairs ++ [(part, op)] := by
    unfold Cnt.add
    dsimp only
    split <;> split <;> rfl
  intro p hp'
  rw [hpairs] at hp'
  split at hp'
  · exact h p hp'
  · rcases List.mem_append.1 hp' with hp' | hp'
    · exact h p hp'
    · rw [List.mem_singleton.1 hp']; exact ⟨ho, parts, hp, hm⟩

theorem adds_pairs {d : Bool} {operands : List (Fm α)} {op : Fm α} (ho : op ∈ operands) {parts : List (Fm α)} (hp : opsOf (!d) op = some parts) :
    ∀ (ps : List (Fm α)) {c : Cnt α}, (∀ p ∈ ps, p ∈ parts) → PairsOk d operands c → PairsOk d operands (ps.foldl (Cnt.add op) c)
  | [], _, _, h => h
  | p :: ps, _, hs, h => adds_pairs ho hp ps (fun q hq => hs q (List.mem_cons_of_mem _ hq)) (add_pairs h ho hp (hs p List.mem_cons_self))

theorem countParts_pairs (d : Bool) (operands : List (Fm α)) : PairsOk d operands (countParts d operands) := by
  unfold countParts
  have : ∀ (os : List (Fm α)) (c : Cnt α), (∀ o ∈ os, o ∈ operands) → PairsOk d operands c →
      PairsOk d operands (os.foldl (fun c op => match opsOf (!d) op with
        | some parts => parts.foldl (Cnt.add op) c
        | none => c) c) := by
    intro os
    induction os with
    | nil => intro c _ h; exact h
    | cons o os ih =>
      intro c hs h
      rw [List.foldl_cons]
      refine ih _ (fun q hq => hs q (List.mem_cons_of_mem _ hq)) ?_
      split
      · rename_i parts hp
        exact adds_pairs (hs o List.mem_cons_self) hp parts (fun _ h => h) h
      · exact h
  exact this operands _ (fun _ h => h) (fun p hp => by simp at hp)

theorem distributeOps_iff {cons d : Bool} {ord : Nat → List (Fm α) → List (Fm α)} (ho : ∀ i l, (ord i l).Perm l) (operands : List (Fm α)) (v : α → Bool) :
    (distributeOps cons d ord operands).eval v = d ↔ ∀ f ∈ operands, f.eval v = d := by
  unfold distributeOps
  dsimp only
  split
  · rw [nary_iff]
    exact ⟨fun h f hf => h f ((ho 1 operands).mem_iff.2 hf), fun h f hf => h f ((ho 1 operands).mem_iff.1 hf)⟩
  · have hp := countParts_pairs d (ord 0 operands)
    obtain ⟨c, hc⟩ : ∃ c, countParts d (ord 0 operands) = c := ⟨_, rfl⟩
    rw [hc] at hp ⊢
    have hset : ∀ op ∈ c.opsWith c.best, op ∈ operands ∧ ∃ parts, opsOf (!d) op = some parts ∧ c.best ∈ parts := by
      intro op hop
      obtain ⟨p, hp1, rfl⟩ := List.mem_map.1 hop
      rw [List.mem_filter, decide_eq_true_eq] at hp1
      have := hp p hp1.1
      rw [hp1.2] at this
      exact ⟨(ho 0 operands).mem_iff.1 this.1, this.2⟩
    -- one operand with the common part
    have hone : ∀ op ∈ c.opsWith c.best, (op.eval v = d ↔ c.best.eval v = d ∨ (dropPart cons d c.best op).eval v = d) := by
      intro op hop
      obtain ⟨_, parts, h1, h2⟩ := hset op hop
      unfold dropPart
      rw [h1, opsOf_dual h1, Option.getD_some, nary_dual]
      simp only [List.mem_filter, decide_eq_true_eq]
      constructor
      · rintro ⟨g, hg, he⟩
        by_cases e : g = c.best
        · exact .inl (e ▸ he)
        · exact .inr ⟨g, ⟨hg, e⟩, he⟩
      · rintro (he | ⟨g, ⟨hg, _⟩, he⟩)
        · exact ⟨_, h2, he⟩
        · exact ⟨g, hg, he⟩
    have hinner : (nary cons (!d) [c.best, nary cons d ((ord 2 (c.opsWith c.best)).map (dropPart cons d c.best))]).eval v = d ↔
        ∀ op ∈ c.opsWith c.best, op.eval v = d := by
      rw [nary_dual]
      simp only [List.mem_cons, List.not_mem_nil, or_false, exists_eq_or_imp, exists_eq_left, nary_iff, List.mem_map, forall_exists_index, and_imp,
        forall_apply_eq_imp_iff₂]
      constructor
      · rintro (h | h) op hop
        · exact (hone op hop).2 (.inl h)
        · exact (hone op hop).2 (.inr (h op ((ho 2 _).mem_iff.2 hop)))
      · intro h
        by_cases e : c.best.eval v = d
        · exact .inl e
        · refine .inr fun op hop => ?_
          have hop := (ho 2 _).mem_iff.1 hop
          exact ((hone op hop).1 (h op hop)).resolve_left e
    rw [nary_iff]
    constructor
    · intro h f hf
      by_cases hm : f ∈ c.opsWith c.best
      · refine hinner.1 (h _ ((ho 3 _).mem_iff.2 ?_)) f hm
        exact List.mem_insert_self
      · refine h f ((ho 3 _).mem_iff.2 (List.mem_insert_of_mem ?_))
        rw [List.mem_filter]
        exact ⟨hf, by simpa using hm⟩
    · intro h f hf
      have hf := (ho 3 _).mem_iff.1 hf
      rw [List.mem_insert_iff] at hf
      rcases hf with rfl | hf
      · exact hinner.2 fun op hop => h op (hset op hop).1
      · exact h f (List.mem_filter.1 hf).1

theorem distributeL_mem {cons : Bool} {ord : Fm α → Nat → List (Fm α) → List (Fm α)} {g : Fm α} : ∀ {fs : List (Fm α)},
    g ∈ distributeL cons ord fs ↔ ∃ f ∈ fs, distribute cons ord f = g
  | [] => by simp [distributeL]
  | f :: fs => by
    rw [distributeL, List.mem_insert_iff, distributeL_mem]
    simp only [List.mem_cons, exists_eq_or_imp]
    rw [eq_comm]

theorem distribute_eval {cons : Bool} {ord : Fm α → Nat → List (Fm α) → List (Fm α)} (ho : ∀ f i l, (ord f i l).Perm l) (v : α → Bool) :
    ∀ f : Fm α, (distribute cons ord f).eval v = f.eval v
  | .tru | .fls | .lit _ | .cc _ _ _ | .pbc _ _ _ => by simp [distribute]
  | .not f => by simp [distribute, distribute_eval ho v f]
  | .impl f g => by simp [distribute, distribute_eval ho v f, distribute_eval ho v g]
  | .equiv f g => by simp [distribute, distribute_eval ho v f, distribute_eval ho v g]
  | .and fs => by
    refine bool_eq_of_iff (d := true) ?_
    rw [distribute, distributeOps_iff (ho _)]
    have ih : ∀ f ∈ fs, (distribute cons ord f).eval v = f.eval v := fun f _ => distribute_eval ho v f
    rw [Fm.eval_and, List.all_eq_true]
    constructor
    · intro h f hf; rw [← ih f hf]; exact h _ (distributeL_mem.2 ⟨f, hf, rfl⟩)
    · intro h g hg
      obtain ⟨f, hf, rfl⟩ := distributeL_mem.1 hg
      rw [ih f hf]; exact h f hf
  | .or fs => by
    refine bool_eq_of_iff (d := false) ?_
    rw [distribute, distributeOps_iff (ho _)]
    have ih : ∀ f ∈ fs, (distribute cons ord f).eval v = f.eval v := fun f _ => distribute_eval ho v f
    rw [Fm.eval_or, List.any_eq_false]
    constructor
    · intro h f hf; rw [← ih f hf]; simpa using h _ (distributeL_mem.2 ⟨f, hf, rfl⟩)
    · intro h g hg
      obtain ⟨f, hf, rfl⟩ := distributeL_mem.1 hg
      rw [ih f hf]; simpa using h f hf

end Verif.Simpl
