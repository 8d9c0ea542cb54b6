import Verif.Factory.FuncModel
import Mathlib.Data.List.Nodup
import Mathlib.Order.Bounds.Defs
/-!
# C41: functions on formulas with caches
-/
namespace Verif.Func
open Verif
variable {α β : Type} [DecidableEq α]
set_option linter.unusedSectionVars false

/-! ### specification -/

mutual
/-- the literals occurring in a formula, with repetitions -/
def occLits : Fm α → List (Lit α)
  | .lit l => [l]
  | .not f => occLits f
  | .and fs => occLitsL fs
  | .or fs => occLitsL fs
  | .impl f g => occLits f ++ occLits g
  | .equiv f g => occLits f ++ occLits g
  | .cc _ _ xs => xs.map fun x => ⟨x, true⟩
  | .pbc _ _ ts => ts.map (·.2)
  | _ => []
def occLitsL : List (Fm α) → List (Lit α)
  | [] => []
  | f :: fs => occLits f ++ occLitsL fs
end

mutual
/-- the occurrences of atomic formulas -/
def leaves : Fm α → List (Fm α)
  | .not f => leaves f
  | .and fs => leavesL fs
  | .or fs => leavesL fs
  | .impl f g => leaves f ++ leaves g
  | .equiv f g => leaves f ++ leaves g
  | f => [f]
def leavesL : List (Fm α) → List (Fm α)
  | [] => []
  | f :: fs => leaves f ++ leavesL fs
end

mutual
/-- all occurrences of subformulas, the literals of a constraint included -/
def allNodes : Fm α → List (Fm α)
  | .not f => .not f :: allNodes f
  | .and fs => .and fs :: allNodesL fs
  | .or fs => .or fs :: allNodesL fs
  | .impl f g => .impl f g :: (allNodes f ++ allNodes g)
  | .equiv f g => .equiv f g :: (allNodes f ++ allNodes g)
  | .cc c k xs => .cc c k xs :: xs.map fun x => .lit ⟨x, true⟩
  | .pbc c k ts => .pbc c k ts :: ts.map fun t => .lit t.2
  | f => [f]
def allNodesL : List (Fm α) → List (Fm α)
  | [] => []
  | f :: fs => allNodes f ++ allNodesL fs
end

/-- `g` is an operand of `f` -/
inductive IsOp : Fm α → Fm α → Prop
  | not (f) : IsOp f (.not f)
  | implL (f g) : IsOp f (.impl f g)
  | implR (f g) : IsOp g (.impl f g)
  | equivL (f g) : IsOp f (.equiv f g)
  | equivR (f g) : IsOp g (.equiv f g)
  | and {f fs} : f ∈ fs → IsOp f (.and fs)
  | or {f fs} : f ∈ fs → IsOp f (.or fs)

/-- a path of `n` steps from a formula to operands -/
inductive Path : Fm α → Nat → Prop
  | nil (f) : Path f 0
  | cons {f g n} : IsOp g f → Path g n → Path f (n + 1)

/-- `h` is a subformula of `f` -/
inductive Sub : Fm α → Fm α → Prop
  | refl (f) : Sub f f
  | step {f g h} : IsOp g f → Sub h g → Sub h f

/-! ### caches -/

mutual
/-- the recursion without cache -/
def plain (node : Fm α → List β → β) : Fm α → β
  | .not f => node (.not f) [plain node f]
  | .impl f g => node (.impl f g) [plain node f, plain node g]
  | .equiv f g => node (.equiv f g) [plain node f, plain node g]
  | .and fs => node (.and fs) (plainL node fs)
  | .or fs => node (.or fs) (plainL node fs)
  | .fls => node .fls []
  | .tru => node .tru []
  | .lit l => node (.lit l) []
  | .cc c k xs => node (.cc c k xs) []
  | .pbc c k ts => node (.pbc c k ts) []
def plainL (node : Fm α → List β → β) : List (Fm α) → List β
  | [] => []
  | f :: fs => plain node f :: plainL node fs
end

theorem plainL_eq (node : Fm α → List β → β) : ∀ fs : List (Fm α), plainL node fs = fs.map (plain node)
  | [] => by simp [plainL]
  | f :: fs => by rw [plainL, plainL_eq node fs]; rfl

/-- all entries of a cache are right -/
def CacheOk (F : Fm α → β) (c : Cache α β) : Prop := ∀ f r, c.lookup f = some r → r = F f

theorem cacheOk_cons {F : Fm α → β} {c : Cache α β} (h : CacheOk F c) (f : Fm α) : CacheOk F ((f, F f) :: c) := by
  intro g r hr
  rw [List.lookup_cons] at hr
  split at hr
  · rename_i e; cases hr; rw [eq_of_beq e]
  · exact h g r hr

theorem hit_ok {F : Fm α → β} {c : Cache α β} (h : CacheOk F c) {f : Fm α} {k : Unit → β × Cache α β} (h1 : (k ()).1 = F f) (h2 : CacheOk F (k ()).2) :
    (hit c f k).1 = F f ∧ CacheOk F (hit c f k).2 := by
  unfold hit
  cases hl : c.lookup f with
  | some r => exact ⟨h f r hl, h⟩
  | none => dsimp only; rw [h1]; exact ⟨rfl, cacheOk_cons h2 f⟩

theorem memo_ok (node : Fm α → List β → β) (f : Fm α) : ∀ {c : Cache α β}, CacheOk (plain node) c → (memo node c f).1 = plain node f ∧ CacheOk (plain node) (memo node c f).2 := by
  have hL : ∀ fs : List (Fm α), (∀ f ∈ fs, ∀ {c : Cache α β}, CacheOk (plain node) c → (memo node c f).1 = plain node f ∧ CacheOk (plain node) (memo node c f).2) →
      ∀ {c : Cache α β}, CacheOk (plain node) c → (memoL node c fs).1 = plainL node fs ∧ CacheOk (plain node) (memoL node c fs).2 := by
    intro fs
    induction fs with
    | nil => intro _ c h; exact ⟨by simp [memoL, plainL], by simpa [memoL] using h⟩
    | cons f fs ih =>
      intro hf c h
      have h1 := hf f (by simp) h
      have h2 := ih (fun g hg => hf g (by simp [hg])) h1.2
      simp only [memoL, plainL]
      exact ⟨by rw [h1.1, h2.1], h2.2⟩
  induction f using Fm.ind with
  | hf => intro c h; rw [memo]; exact hit_ok h (by simp [plain]) h
  | ht => intro c h; rw [memo]; exact hit_ok h (by simp [plain]) h
  | hl l => intro c h; rw [memo]; exact hit_ok h (by simp [plain]) h
  | hn f ih => intro c h; rw [memo]; exact hit_ok h (by simp [plain, (ih h).1]) (ih h).2
  | ha fs ih => intro c h; rw [memo]; exact hit_ok h (by simp [plain, (hL fs ih h).1]) (hL fs ih h).2
  | ho fs ih => intro c h; rw [memo]; exact hit_ok h (by simp [plain, (hL fs ih h).1]) (hL fs ih h).2
  | hi f g h1 h2 => intro c h; rw [memo]; exact hit_ok h (by simp [plain, (h1 h).1, (h2 (h1 h).2).1]) (h2 (h1 h).2).2
  | he f g h1 h2 => intro c h; rw [memo]; exact hit_ok h (by simp [plain, (h1 h).1, (h2 (h1 h).2).1]) (h2 (h1 h).2).2
  | hc s k xs => intro c h; rw [memo]; exact hit_ok h (by simp [plain]) h
  | hp s k ts => intro c h; rw [memo]; exact hit_ok h (by simp [plain]) h

/-- caches after any sequence of calls -/
inductive Reach (call : Cache α β → Fm α → β × Cache α β) : Cache α β → Prop
  | init : Reach call []
  | step {c} (f) : Reach call c → Reach call (call c f).2

theorem reach_ok {node : Fm α → List β → β} {c : Cache α β} (h : Reach (memo node) c) : CacheOk (plain node) c := by
  induction h with
  | init => intro f r hr; simp at hr
  | step f _ ih => exact (memo_ok node f ih).2

theorem memo_eq {node : Fm α → List β → β} {c : Cache α β} (h : Reach (memo node) c) (f : Fm α) : (memo node c f).1 = plain node f := (memo_ok node f (reach_ok h)).1

/-! ### the functions -/

theorem foldl_add (l : List Nat) : ∀ a, l.foldl (· + ·) a = a + l.sum := by
  induction l with
  | nil => simp
  | cons x l ih => intro a; rw [List.foldl_cons, ih]; simp; omega

theorem leavesL_eq : ∀ fs : List (Fm α), leavesL fs = fs.flatMap leaves
  | [] => by simp [leavesL]
  | f :: fs => by rw [leavesL, leavesL_eq fs]; rfl
theorem allNodesL_eq : ∀ fs : List (Fm α), allNodesL fs = fs.flatMap allNodes
  | [] => by simp [allNodesL]
  | f :: fs => by rw [allNodesL, allNodesL_eq fs]; rfl
theorem occLitsL_eq : ∀ fs : List (Fm α), occLitsL fs = fs.flatMap occLits
  | [] => by simp [occLitsL]
  | f :: fs => by rw [occLitsL, occLitsL_eq fs]; rfl

/-- **C41.** `NumberOfAtoms` is the number of occurrences of atomic formulas, in every cache state. -/
theorem C41_atoms {c : Cache α Nat} (h : Reach (memo atomsNode) c) (f : Fm α) : (memo atomsNode c f).1 = (leaves f).length := by
  rw [memo_eq h]
  clear h
  induction f using Fm.ind with
  | hf => simp [plain, atomsNode, leaves]
  | ht => simp [plain, atomsNode, leaves]
  | hl l => simp [plain, atomsNode, leaves]
  | hn f ih => simp [plain, atomsNode, leaves, ih]
  | ha fs ih =>
    simp only [plain, atomsNode, leaves, leavesL_eq, plainL_eq, foldl_add, List.length_flatMap, Nat.zero_add]
    rw [List.map_congr_left ih]
  | ho fs ih =>
    simp only [plain, atomsNode, leaves, leavesL_eq, plainL_eq, foldl_add, List.length_flatMap, Nat.zero_add]
    rw [List.map_congr_left ih]
  | hi f g h1 h2 => simp [plain, atomsNode, leaves, h1, h2]
  | he f g h1 h2 => simp [plain, atomsNode, leaves, h1, h2]
  | hc s k xs => simp [plain, atomsNode, leaves]
  | hp s k ts => simp [plain, atomsNode, leaves]

/-- **C41.** `NumberOfNodes` is the number of occurrences of subformulas, literals of constraints included, in every cache state. -/
theorem C41_nodes {c : Cache α Nat} (h : Reach (memo nodesNode) c) (f : Fm α) : (memo nodesNode c f).1 = (allNodes f).length := by
  rw [memo_eq h]
  clear h
  induction f using Fm.ind with
  | hf => simp [plain, nodesNode, allNodes]
  | ht => simp [plain, nodesNode, allNodes]
  | hl l => simp [plain, nodesNode, allNodes]
  | hn f ih => simp [plain, nodesNode, allNodes, ih]; omega
  | ha fs ih =>
    simp only [plain, nodesNode, allNodes, allNodesL_eq, plainL_eq, foldl_add, List.length_cons, List.length_flatMap]
    rw [List.map_congr_left ih]; omega
  | ho fs ih =>
    simp only [plain, nodesNode, allNodes, allNodesL_eq, plainL_eq, foldl_add, List.length_cons, List.length_flatMap]
    rw [List.map_congr_left ih]; omega
  | hi f g h1 h2 => simp [plain, nodesNode, allNodes, h1, h2]; omega
  | he f g h1 h2 => simp [plain, nodesNode, allNodes, h1, h2]; omega
  | hc s k xs => simp [plain, nodesNode, allNodes]; omega
  | hp s k ts => simp [plain, nodesNode, allNodes]; omega

theorem le_foldl_max (l : List Nat) : ∀ a, a ≤ l.foldl max a ∧ ∀ x ∈ l, x ≤ l.foldl max a := by
  induction l with
  | nil => simp
  | cons y l ih =>
    intro a
    obtain ⟨h1, h2⟩ := ih (max a y)
    refine ⟨by rw [List.foldl_cons]; omega, fun x hx => ?_⟩
    rcases List.mem_cons.1 hx with rfl | hx
    · rw [List.foldl_cons]; omega
    · exact h2 x hx
theorem foldl_max_mem (l : List Nat) : ∀ a, l.foldl max a = a ∨ l.foldl max a ∈ l := by
  induction l with
  | nil => simp
  | cons y l ih =>
    intro a
    rw [List.foldl_cons]
    rcases ih (max a y) with h | h
    · rw [h]
      rcases Nat.le_total a y with h' | h'
      · right; rw [Nat.max_eq_right h']; simp
      · left; exact Nat.max_eq_left h'
    · right; simp [h]

theorem depth_of_ops {f : Fm α} {ops : List (Fm α)} {d : Fm α → Nat} (hops : ∀ g, IsOp g f ↔ g ∈ ops)
    (ih : ∀ g ∈ ops, IsGreatest {n | Path g n} (d g)) (h0 : ops ≠ []) : IsGreatest {n | Path f n} ((ops.map d).foldl max 0 + 1) := by
  constructor
  · show Path f _
    obtain ⟨h1, _⟩ := le_foldl_max (ops.map d) 0
    rcases foldl_max_mem (ops.map d) 0 with h | h
    · rw [h]
      obtain ⟨g, hg⟩ := List.exists_mem_of_ne_nil ops h0
      have := (ih g hg).1
      have h2 := (le_foldl_max (ops.map d) 0).2 (d g) (List.mem_map_of_mem hg)
      rw [h] at h2
      have e : d g = 0 := by omega
      exact .cons ((hops g).2 hg) (.nil g)
    · obtain ⟨g, hg, e⟩ := List.mem_map.1 h
      rw [← e]
      exact .cons ((hops g).2 hg) (ih g hg).1
  · rintro n hn
    cases hn with
    | nil => omega
    | @cons _ g n hop hp =>
      have hg := (hops g).1 hop
      have := (ih g hg).2 hp
      have h2 := (le_foldl_max (ops.map d) 0).2 (d g) (List.mem_map_of_mem hg)
      omega

/-- no formula built by the factory has an n-ary operator without operands -/
def noEmpty : Fm α → Prop := fun f => ∀ g, Sub g f → g ≠ .and [] ∧ g ≠ .or []

theorem noEmpty_op {f g : Fm α} (h : noEmpty f) (ho : IsOp g f) : noEmpty g := fun k hk => h k (.step ho hk)

theorem atomic_depth {f : Fm α} (h : ∀ g, ¬ IsOp g f) : IsGreatest {n | Path f n} 0 :=
  ⟨.nil f, fun n hn => by cases hn with | nil => exact Nat.le_refl _ | cons ho _ => exact absurd ho (h _)⟩

/-- **C41.** `Depth` is the length of the longest path from the formula to an atomic formula, in every cache state. -/
theorem C41_depth {c : Cache α Nat} (h : Reach (memo depthNode) c) (f : Fm α) (hne : noEmpty f) : IsGreatest {n | Path f n} (memo depthNode c f).1 := by
  rw [memo_eq h]
  clear h
  induction f using Fm.ind with
  | hf => rw [plain]; exact atomic_depth fun g h => by cases h
  | ht => rw [plain]; exact atomic_depth fun g h => by cases h
  | hl l => rw [plain]; exact atomic_depth fun g h => by cases h
  | hc s k xs => rw [plain]; exact atomic_depth fun g h => by cases h
  | hp s k xs => rw [plain]; exact atomic_depth fun g h => by cases h
  | hn f ih =>
    rw [plain, depthNode]
    refine depth_of_ops (ops := [f]) (d := plain depthNode) (fun g => ⟨fun h => by cases h; simp, fun h => by simp at h; subst h; exact .not _⟩) ?_ (by simp)
    intro g hg; simp at hg; subst hg; exact ih (noEmpty_op hne (.not _))
  | ha fs ih =>
    rw [plain, depthNode, plainL_eq]
    exact depth_of_ops (fun g => ⟨fun h => by cases h; assumption, .and⟩) (fun g hg => ih g hg (noEmpty_op hne (.and hg))) (fun e => (hne _ (.refl _)).1 (by rw [e]))
  | ho fs ih =>
    rw [plain, depthNode, plainL_eq]
    exact depth_of_ops (fun g => ⟨fun h => by cases h; assumption, .or⟩) (fun g hg => ih g hg (noEmpty_op hne (.or hg))) (fun e => (hne _ (.refl _)).2 (by rw [e]))
  | hi f g h1 h2 =>
    rw [plain, depthNode]
    refine depth_of_ops (ops := [f, g]) (d := plain depthNode) (fun k => ⟨fun h => by cases h <;> simp, fun h => ?_⟩) ?_ (by simp)
    · simp at h; rcases h with rfl | rfl
      · exact .implL _ _
      · exact .implR _ _
    · intro k hk; simp at hk; rcases hk with rfl | rfl
      · exact h1 (noEmpty_op hne (.implL _ _))
      · exact h2 (noEmpty_op hne (.implR _ _))
  | he f g h1 h2 =>
    rw [plain, depthNode]
    refine depth_of_ops (ops := [f, g]) (d := plain depthNode) (fun k => ⟨fun h => by cases h <;> simp, fun h => ?_⟩) ?_ (by simp)
    · simp at h; rcases h with rfl | rfl
      · exact .equivL _ _
      · exact .equivR _ _
    · intro k hk; simp at hk; rcases hk with rfl | rfl
      · exact h1 (noEmpty_op hne (.equivL _ _))
      · exact h2 (noEmpty_op hne (.equivR _ _))

theorem foldl_insert {γ δ : Type} [DecidableEq γ] (k : δ → γ) (l : List δ) : ∀ {s : List γ}, s.Nodup →
    (l.foldl (fun s x => s.insert (k x)) s).Nodup ∧ ∀ x, x ∈ l.foldl (fun s x => s.insert (k x)) s ↔ x ∈ s ∨ ∃ y ∈ l, k y = x := by
  induction l with
  | nil => intro s h; simp [h]
  | cons y l ih =>
    intro s h
    obtain ⟨h1, h2⟩ := ih (s := s.insert (k y)) (h.insert)
    refine ⟨h1, fun x => ?_⟩
    rw [List.foldl_cons, h2, List.mem_insert_iff]
    simp only [List.mem_cons, exists_eq_or_imp]
    constructor
    · rintro ((h | h) | h)
      · exact .inr (.inl h.symm)
      · exact .inl h
      · exact .inr (.inr h)
    · rintro (h | h | h)
      · exact .inl (.inr h)
      · exact .inl (.inl h.symm)
      · exact .inr h
theorem foldl_insert2 {γ : Type} [DecidableEq γ] (l : List (List γ)) : ∀ {s : List γ}, s.Nodup →
    (l.foldl (fun a b => b.foldl (fun s x => s.insert x) a) s).Nodup ∧ ∀ x, x ∈ l.foldl (fun a b => b.foldl (fun s x => s.insert x) a) s ↔ x ∈ s ∨ ∃ y ∈ l, x ∈ y := by
  induction l with
  | nil => intro s h; simp [h]
  | cons y l ih =>
    intro s h
    have h0 := foldl_insert (fun x : γ => x) y h
    obtain ⟨h1, h2⟩ := ih h0.1
    refine ⟨h1, fun x => ?_⟩
    rw [List.foldl_cons, h2, h0.2]
    simp [or_assoc]

/-- **C41.** `Variables` contains exactly the variables occurring in the formula, each once, in every cache state; and the truth value depends only on them. -/
theorem C41_variables {c : Cache α (List α)} (h : Reach (memo varsNode) c) (f : Fm α) :
    (memo varsNode c f).1.Nodup ∧ (∀ x, x ∈ (memo varsNode c f).1 ↔ x ∈ f.vars) ∧
    ∀ v w : α → Bool, (∀ x ∈ (memo varsNode c f).1, v x = w x) → f.eval v = f.eval w := by
  rw [memo_eq h]
  clear h
  have key : (plain varsNode f).Nodup ∧ ∀ x, x ∈ plain varsNode f ↔ x ∈ f.vars := by
    induction f using Fm.ind with
    | hf => simp [plain, varsNode]
    | ht => simp [plain, varsNode]
    | hl l => simp [plain, varsNode]
    | hn f ih =>
      have := foldl_insert2 [plain varsNode f] (s := []) List.nodup_nil
      simp only [plain, varsNode]
      exact ⟨this.1, fun x => by rw [this.2]; simp [ih.2]⟩
    | ha fs ih =>
      have := foldl_insert2 (fs.map (plain varsNode)) (s := []) List.nodup_nil
      simp only [plain, varsNode, plainL_eq]
      refine ⟨this.1, fun x => ?_⟩
      rw [this.2]
      simp only [List.not_mem_nil, false_or, List.mem_map, exists_exists_and_eq_and, Fm.vars_and, List.mem_flatMap]
      exact exists_congr fun g => and_congr_right fun hg => (ih g hg).2 x
    | ho fs ih =>
      have := foldl_insert2 (fs.map (plain varsNode)) (s := []) List.nodup_nil
      simp only [plain, varsNode, plainL_eq]
      refine ⟨this.1, fun x => ?_⟩
      rw [this.2]
      simp only [List.not_mem_nil, false_or, List.mem_map, exists_exists_and_eq_and, Fm.vars_or, List.mem_flatMap]
      exact exists_congr fun g => and_congr_right fun hg => (ih g hg).2 x
    | hi f g h1 h2 =>
      have := foldl_insert2 [plain varsNode f, plain varsNode g] (s := []) List.nodup_nil
      simp only [plain, varsNode]
      exact ⟨this.1, fun x => by rw [this.2]; simp [h1.2, h2.2]⟩
    | he f g h1 h2 =>
      have := foldl_insert2 [plain varsNode f, plain varsNode g] (s := []) List.nodup_nil
      simp only [plain, varsNode]
      exact ⟨this.1, fun x => by rw [this.2]; simp [h1.2, h2.2]⟩
    | hc s k xs =>
      have := foldl_insert (fun x : α => x) xs (s := []) List.nodup_nil
      simp only [plain, varsNode]
      exact ⟨this.1, fun x => by rw [this.2]; simp⟩
    | hp s k ts =>
      have := foldl_insert (fun t : Int × Lit α => t.2.var) ts (s := []) List.nodup_nil
      simp only [plain, varsNode]
      exact ⟨this.1, fun x => by rw [this.2]; simp⟩
  exact ⟨key.1, key.2, fun v w hv => Fm.eval_congr f fun x hx => hv x ((key.2 x).2 hx)⟩

/-- **C41.** `Literals` contains exactly the literals occurring in the formula, each once, in every cache state. -/
theorem C41_literals {c : Cache α (List (Lit α))} (h : Reach (memo litsNode) c) (f : Fm α) :
    (memo litsNode c f).1.Nodup ∧ ∀ l, l ∈ (memo litsNode c f).1 ↔ l ∈ occLits f := by
  rw [memo_eq h]
  clear h
  induction f using Fm.ind with
  | hf => simp [plain, litsNode, occLits]
  | ht => simp [plain, litsNode, occLits]
  | hl l => simp [plain, litsNode, occLits]
  | hn f ih =>
    have := foldl_insert2 [plain litsNode f] (s := []) List.nodup_nil
    simp only [plain, litsNode]
    exact ⟨this.1, fun x => by rw [this.2]; simp [ih.2, occLits]⟩
  | ha fs ih =>
    have := foldl_insert2 (fs.map (plain litsNode)) (s := []) List.nodup_nil
    simp only [plain, litsNode, plainL_eq]
    refine ⟨this.1, fun x => ?_⟩
    rw [this.2]
    simp only [List.not_mem_nil, false_or, List.mem_map, exists_exists_and_eq_and, occLits, occLitsL_eq, List.mem_flatMap]
    exact exists_congr fun g => and_congr_right fun hg => (ih g hg).2 x
  | ho fs ih =>
    have := foldl_insert2 (fs.map (plain litsNode)) (s := []) List.nodup_nil
    simp only [plain, litsNode, plainL_eq]
    refine ⟨this.1, fun x => ?_⟩
    rw [this.2]
    simp only [List.not_mem_nil, false_or, List.mem_map, exists_exists_and_eq_and, occLits, occLitsL_eq, List.mem_flatMap]
    exact exists_congr fun g => and_congr_right fun hg => (ih g hg).2 x
  | hi f g h1 h2 =>
    have := foldl_insert2 [plain litsNode f, plain litsNode g] (s := []) List.nodup_nil
    simp only [plain, litsNode]
    exact ⟨this.1, fun x => by rw [this.2]; simp [h1.2, h2.2, occLits]⟩
  | he f g h1 h2 =>
    have := foldl_insert2 [plain litsNode f, plain litsNode g] (s := []) List.nodup_nil
    simp only [plain, litsNode]
    exact ⟨this.1, fun x => by rw [this.2]; simp [h1.2, h2.2, occLits]⟩
  | hc s k xs =>
    have := foldl_insert (fun x : α => (⟨x, true⟩ : Lit α)) xs (s := []) List.nodup_nil
    simp only [plain, litsNode]
    exact ⟨this.1, fun x => by rw [this.2]; simp [occLits]⟩
  | hp s k ts =>
    have := foldl_insert (fun t : Int × Lit α => t.2) ts (s := []) List.nodup_nil
    simp only [plain, litsNode]
    exact ⟨this.1, fun x => by rw [this.2]; simp [occLits]⟩

/-! ### profiles -/

theorem foldl_inc {γ δ : Type} [DecidableEq γ] (k : δ → γ) (l : List δ) : ∀ (m : γ → Nat) (x : γ), l.foldl (fun m t => inc m (k t)) m x = m x + (l.map k).count x := by
  induction l with
  | nil => simp
  | cons y l ih =>
    intro m x
    rw [List.foldl_cons, ih, List.map_cons, List.count_cons, inc]
    by_cases e : x = k y
    · subst e; simp; omega
    · have : (k y == x) = false := by simpa using fun h => e h.symm
      simp [e, this]

/-- **C41.** `LiteralProfile` counts the occurrences of every literal. -/
theorem C41_litProfile (f : Fm α) : ∀ (m : Lit α → Nat) (l : Lit α), litProfile m f l = m l + (occLits f).count l := by
  have hL : ∀ fs : List (Fm α), (∀ f ∈ fs, ∀ (m : Lit α → Nat) (l : Lit α), litProfile m f l = m l + (occLits f).count l) →
      ∀ (m : Lit α → Nat) (l : Lit α), litProfileL m fs l = m l + (occLitsL fs).count l := by
    intro fs
    induction fs with
    | nil => intro _ m l; simp [litProfileL, occLitsL]
    | cons f fs ih => intro h m l; rw [litProfileL, ih (fun g hg => h g (by simp [hg])), h f (by simp), occLitsL, List.count_append]; omega
  induction f using Fm.ind with
  | hf => intro m l; simp [litProfile, occLits]
  | ht => intro m l; simp [litProfile, occLits]
  | hl l =>
    intro m x
    have := foldl_inc (fun x : Lit α => x) [l] m x
    simpa [litProfile, occLits] using this
  | hn f ih => intro m l; rw [litProfile, ih, occLits]
  | ha fs ih => intro m l; rw [litProfile, hL fs ih, occLits]
  | ho fs ih => intro m l; rw [litProfile, hL fs ih, occLits]
  | hi f g h1 h2 => intro m l; rw [litProfile, h2, h1, occLits, List.count_append]; omega
  | he f g h1 h2 => intro m l; rw [litProfile, h2, h1, occLits, List.count_append]; omega
  | hc s k xs => intro m l; rw [litProfile, foldl_inc, occLits]
  | hp s k ts => intro m l; rw [litProfile, foldl_inc, occLits]

/-- **C41.** `VariableProfile` counts the occurrences of every variable. -/
theorem C41_varProfile (f : Fm α) : ∀ (m : α → Nat) (x : α), varProfile m f x = m x + f.vars.count x := by
  have hL : ∀ fs : List (Fm α), (∀ f ∈ fs, ∀ (m : α → Nat) (l : α), varProfile m f l = m l + f.vars.count l) →
      ∀ (m : α → Nat) (l : α), varProfileL m fs l = m l + (Fm.varsL fs).count l := by
    intro fs
    induction fs with
    | nil => intro _ m l; simp [varProfileL, Fm.varsL]
    | cons f fs ih => intro h m l; rw [varProfileL, ih (fun g hg => h g (by simp [hg])), h f (by simp), Fm.varsL, List.count_append]; omega
  induction f using Fm.ind with
  | hf => intro m l; simp [varProfile]
  | ht => intro m l; simp [varProfile]
  | hl l =>
    intro m x
    have := foldl_inc (fun x : α => x) [l.var] m x
    simpa [varProfile] using this
  | hn f ih => intro m l; rw [varProfile, ih, Fm.vars_not]
  | ha fs ih => intro m l; rw [varProfile, hL fs ih, Fm.vars]
  | ho fs ih => intro m l; rw [varProfile, hL fs ih, Fm.vars]
  | hi f g h1 h2 => intro m l; rw [varProfile, h2, h1, Fm.vars_impl, List.count_append]; omega
  | he f g h1 h2 => intro m l; rw [varProfile, h2, h1, Fm.vars_equiv, List.count_append]; omega
  | hc s k xs => intro m l; rw [varProfile, Fm.vars_cc]; have := foldl_inc (fun x : α => x) xs m l; simpa using this
  | hp s k ts => intro m l; rw [varProfile, foldl_inc, Fm.vars_pbc]

/-! ### subnodes -/

/-- a bottom-up list: the subformulas of each member come before it -/
def BottomUp (l : List (Fm α)) : Prop := l.Nodup ∧ ∀ a f b, l = a ++ f :: b → ∀ g, IsOp g f → g ∈ a

/-- right result for `SubNodes` -/
def SubOk (f : Fm α) (l : List (Fm α)) : Prop := BottomUp l ∧ ∀ g, g ∈ l ↔ Sub g f

theorem bottomUp_nil : BottomUp ([] : List (Fm α)) := ⟨List.nodup_nil, fun a f b h => by simp at h⟩

theorem bottomUp_sub {l : List (Fm α)} (h : BottomUp l) {f : Fm α} (hf : f ∈ l) {g : Fm α} (hg : Sub g f) : g ∈ l := by
  induction hg with
  | refl => exact hf
  | step ho _ ih =>
    obtain ⟨a, b, rfl⟩ := List.append_of_mem hf
    exact ih (by have := h.2 a _ b rfl _ ho; simp [this])

theorem bottomUp_add {l : List (Fm α)} (h : BottomUp l) {f : Fm α} (hf : ∀ g, IsOp g f → g ∈ l) : BottomUp (addLast l f) := by
  unfold addLast
  split
  · exact h
  · rename_i hn
    refine ⟨List.nodup_append.2 ⟨h.1, by simp, fun x hx y hy e => hn (by simp at hy; rw [← hy, ← e]; exact hx)⟩, fun a k b e g hg => ?_⟩
    rcases List.eq_nil_or_concat b with rfl | ⟨b', x, rfl⟩
    · have := List.append_inj' e rfl
      obtain ⟨rfl, h2⟩ := this
      simp at h2; subst h2
      exact hf g hg
    · rw [List.concat_eq_append, ← List.cons_append, ← List.append_assoc] at e
      have := List.append_inj' e rfl
      exact h.2 a k b' this.1 g hg

theorem mem_addLast {l : List (Fm α)} {f g : Fm α} : g ∈ addLast l f ↔ g ∈ l ∨ g = f := by
  unfold addLast; split
  · rename_i h; exact ⟨.inl, fun h' => h'.elim id fun e => e ▸ h⟩
  · simp

theorem bottomUp_addAll (r : List (Fm α)) : ∀ {s : List (Fm α)}, BottomUp s → (∀ a f b, r = a ++ f :: b → ∀ g, IsOp g f → g ∈ s ∨ g ∈ a) →
    BottomUp (r.foldl addLast s) ∧ ∀ g, g ∈ r.foldl addLast s ↔ g ∈ s ∨ g ∈ r := by
  induction r with
  | nil => intro s h _; simp [h]
  | cons x r ih =>
    intro s h hr
    have h1 := bottomUp_add h (f := x) fun g hg => by simpa using hr [] x r rfl g hg
    obtain ⟨h2, h3⟩ := ih h1 fun a f b e g hg => by
      have := hr (x :: a) f b (by rw [e]; rfl) g hg
      rw [mem_addLast]
      simp only [List.mem_cons] at this
      rcases this with h | h | h
      · exact .inl (.inl h)
      · exact .inl (.inr h)
      · exact .inr h
    refine ⟨h2, fun g => ?_⟩
    rw [List.foldl_cons, h3, mem_addLast]
    simp [or_assoc]

/-- entries of the cache of `SubNodes` -/
def SubCache (c : Cache α (List (Fm α))) : Prop := ∀ f r, c.lookup f = some r → SubOk f r

theorem subHit {c : Cache α (List (Fm α))} (h : SubCache c) {f : Fm α} {k : Unit → List (Fm α) × Cache α (List (Fm α))} (h1 : SubOk f (k ()).1) (h2 : SubCache (k ()).2) :
    SubOk f (hit c f k).1 ∧ SubCache (hit c f k).2 := by
  unfold hit
  cases hl : c.lookup f with
  | some r => exact ⟨h f r hl, h⟩
  | none =>
    refine ⟨h1, fun g r hr => ?_⟩
    rw [List.lookup_cons] at hr
    split at hr
    · rename_i e; cases hr; rw [eq_of_beq e]; exact h1
    · exact h2 g r hr

theorem addAll_ok {s : List (Fm α)} (h : BottomUp s) {f : Fm α} {r : List (Fm α)} (hr : SubOk f r) :
    BottomUp (r.foldl addLast s) ∧ ∀ g, g ∈ r.foldl addLast s ↔ g ∈ s ∨ Sub g f := by
  obtain ⟨h1, h2⟩ := bottomUp_addAll r h fun a k b e g hg => .inr (hr.1.2 a k b e g hg)
  exact ⟨h1, fun g => by rw [h2, hr.2]⟩

theorem subOk_final {f : Fm α} {s : List (Fm α)} (h : BottomUp s) (hs : ∀ g, g ∈ s ↔ ∃ o, IsOp o f ∧ Sub g o) : SubOk f (addLast s f) := by
  refine ⟨bottomUp_add h fun g hg => (hs g).2 ⟨g, hg, .refl g⟩, fun g => ?_⟩
  rw [mem_addLast, hs]
  constructor
  · rintro (⟨o, h1, h2⟩ | rfl)
    · exact .step h1 h2
    · exact .refl _
  · intro h
    cases h with
    | refl => exact .inr rfl
    | step h1 h2 => exact .inl ⟨_, h1, h2⟩

theorem subOk_atomic {f : Fm α} (h : ∀ g, ¬ IsOp g f) : SubOk f [f] :=
  subOk_final (s := []) bottomUp_nil fun g => by simp [h]

theorem subNodes_ok (f : Fm α) : ∀ {c : Cache α (List (Fm α))}, SubCache c → SubOk f (subNodes c f).1 ∧ SubCache (subNodes c f).2 := by
  have hL : ∀ fs : List (Fm α), (∀ f ∈ fs, ∀ {c : Cache α (List (Fm α))}, SubCache c → SubOk f (subNodes c f).1 ∧ SubCache (subNodes c f).2) →
      ∀ {c : Cache α (List (Fm α))} {s : List (Fm α)}, SubCache c → BottomUp s →
        BottomUp (subNodesL c s fs).1 ∧ (∀ g, g ∈ (subNodesL c s fs).1 ↔ g ∈ s ∨ ∃ f ∈ fs, Sub g f) ∧ SubCache (subNodesL c s fs).2 := by
    intro fs
    induction fs with
    | nil => intro _ c s h hs; simp only [subNodesL]; exact ⟨hs, by simp, h⟩
    | cons f fs ih =>
      intro hf c s h hs
      rw [subNodesL]
      split
      · rename_i hm
        obtain ⟨h1, h2, h3⟩ := ih (fun g hg => hf g (by simp [hg])) h hs
        refine ⟨h1, fun g => ?_, h3⟩
        rw [h2]
        constructor
        · rintro (h | ⟨k, hk, h⟩)
          · exact .inl h
          · exact .inr ⟨k, by simp [hk], h⟩
        · rintro (h | ⟨k, hk, h⟩)
          · exact .inl h
          · rcases List.mem_cons.1 hk with rfl | hk
            · exact .inl (bottomUp_sub hs hm h)
            · exact .inr ⟨k, hk, h⟩
      · have h0 := hf f (by simp) h
        have ha := addAll_ok hs h0.1
        obtain ⟨h1, h2, h3⟩ := ih (fun g hg => hf g (by simp [hg])) h0.2 ha.1
        refine ⟨h1, fun g => ?_, h3⟩
        rw [h2, ha.2]
        simp [or_assoc]
  have h2 : ∀ (f g k : Fm α), (∀ o, IsOp o k ↔ o = f ∨ o = g) → (∀ {c : Cache α (List (Fm α))}, SubCache c → SubOk f (subNodes c f).1 ∧ SubCache (subNodes c f).2) →
      (∀ {c : Cache α (List (Fm α))}, SubCache c → SubOk g (subNodes c g).1 ∧ SubCache (subNodes c g).2) → ∀ {c : Cache α (List (Fm α))}, SubCache c →
      SubOk k (if g ∈ (subNodes c f).1.foldl addLast [] then (addLast ((subNodes c f).1.foldl addLast []) k, (subNodes c f).2)
        else (addLast ((subNodes (subNodes c f).2 g).1.foldl addLast ((subNodes c f).1.foldl addLast [])) k, (subNodes (subNodes c f).2 g).2)).1 ∧
      SubCache (if g ∈ (subNodes c f).1.foldl addLast [] then (addLast ((subNodes c f).1.foldl addLast []) k, (subNodes c f).2)
        else (addLast ((subNodes (subNodes c f).2 g).1.foldl addLast ((subNodes c f).1.foldl addLast [])) k, (subNodes (subNodes c f).2 g).2)).2 := by
    intro f g k hk h1 h2 c h
    have hf := h1 h
    have ha := addAll_ok bottomUp_nil hf.1
    split
    · rename_i hm
      refine ⟨subOk_final ha.1 fun x => ?_, hf.2⟩
      rw [ha.2]
      constructor
      · rintro (h | h)
        · simp at h
        · exact ⟨f, (hk f).2 (.inl rfl), h⟩
      · rintro ⟨o, ho, hx⟩
        rcases (hk o).1 ho with rfl | rfl
        · exact .inr hx
        · exact (ha.2 x).1 (bottomUp_sub ha.1 hm hx)
    · have hg := h2 hf.2
      have hb := addAll_ok ha.1 hg.1
      refine ⟨subOk_final hb.1 fun x => ?_, hg.2⟩
      rw [hb.2, ha.2]
      constructor
      · rintro ((h | h) | h)
        · simp at h
        · exact ⟨f, (hk f).2 (.inl rfl), h⟩
        · exact ⟨g, (hk g).2 (.inr rfl), h⟩
      · rintro ⟨o, ho, hx⟩
        rcases (hk o).1 ho with rfl | rfl
        · exact .inl (.inr hx)
        · exact .inr hx
  induction f using Fm.ind with
  | hf => intro c h; rw [subNodes]; exact subHit h (subOk_atomic fun g h => by cases h) h
  | ht => intro c h; rw [subNodes]; exact subHit h (subOk_atomic fun g h => by cases h) h
  | hl l => intro c h; rw [subNodes]; exact subHit h (subOk_atomic fun g h => by cases h) h
  | hc s k xs => intro c h; rw [subNodes]; exact subHit h (subOk_atomic fun g h => by cases h) h
  | hp s k xs => intro c h; rw [subNodes]; exact subHit h (subOk_atomic fun g h => by cases h) h
  | hn f ih =>
    intro c h; rw [subNodes]
    have ha := addAll_ok bottomUp_nil (ih h).1
    refine subHit h (subOk_final ha.1 fun x => ?_) (ih h).2
    rw [ha.2]
    constructor
    · rintro (h | h)
      · simp at h
      · exact ⟨f, .not f, h⟩
    · rintro ⟨o, ho, hx⟩
      cases ho; exact .inr hx
  | ha fs ih =>
    intro c h; rw [subNodes]
    obtain ⟨h1, h2, h3⟩ := hL fs ih h bottomUp_nil
    refine subHit h (subOk_final h1 fun x => ?_) h3
    rw [h2]
    constructor
    · rintro (h | ⟨o, ho, h⟩)
      · simp at h
      · exact ⟨o, .and ho, h⟩
    · rintro ⟨o, ho, hx⟩
      cases ho with | and hm => exact .inr ⟨o, hm, hx⟩
  | ho fs ih =>
    intro c h; rw [subNodes]
    obtain ⟨h1, h2, h3⟩ := hL fs ih h bottomUp_nil
    refine subHit h (subOk_final h1 fun x => ?_) h3
    rw [h2]
    constructor
    · rintro (h | ⟨o, ho, h⟩)
      · simp at h
      · exact ⟨o, .or ho, h⟩
    · rintro ⟨o, ho, hx⟩
      cases ho with | or hm => exact .inr ⟨o, hm, hx⟩
  | hi f g h1 h3 =>
    intro c h; rw [subNodes]
    have := h2 f g (.impl f g) (fun o => ⟨fun h => by cases h <;> simp, fun h => by rcases h with rfl | rfl; exacts [.implL _ _, .implR _ _]⟩) h1 h3 h
    exact subHit h this.1 this.2
  | he f g h1 h3 =>
    intro c h; rw [subNodes]
    have := h2 f g (.equiv f g) (fun o => ⟨fun h => by cases h <;> simp, fun h => by rcases h with rfl | rfl; exacts [.equivL _ _, .equivR _ _]⟩) h1 h3 h
    exact subHit h this.1 this.2

/-- **C41.** `SubNodes` lists every subformula exactly once, bottom-up: each one comes after all its operands; in every cache state. -/
theorem C41_subNodes {c : Cache α (List (Fm α))} (h : Reach subNodes c) (f : Fm α) :
    (subNodes c f).1.Nodup ∧ (∀ g, g ∈ (subNodes c f).1 ↔ Sub g f) ∧ ∀ a k b, (subNodes c f).1 = a ++ k :: b → ∀ g, IsOp g k → g ∈ a := by
  have hc : SubCache c := by
    induction h with
    | init => intro f r hr; simp at hr
    | step f _ ih => exact (subNodes_ok f ih).2
  have := (subNodes_ok f hc).1
  exact ⟨this.1.1, this.2, this.1.2⟩

/-! ### examples -/

def exF : Fm Nat := .and [.or [.lit ⟨0, true⟩, .lit ⟨1, false⟩], .not (.impl (.lit ⟨0, true⟩) (.or [.lit ⟨0, true⟩, .lit ⟨1, false⟩])), .pbc .le 2 [(2, ⟨3, true⟩), (1, ⟨1, false⟩)]]
example : (memo atomsNode [] exF).1 = 6 ∧ (memo nodesNode [] exF).1 = 13 ∧ (memo depthNode [] exF).1 = 4 := by decide +kernel
example : (memo varsNode [] exF).1.length = 3 ∧ (memo litsNode [] exF).1.length = 3 ∧ (subNodes [] exF).1.length = 7 := by decide +kernel
example : (memo atomsNode (memo atomsNode [] exF).2 (.not exF)).1 = 6 := by decide +kernel

end Verif.Func
