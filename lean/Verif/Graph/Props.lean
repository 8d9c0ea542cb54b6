import Verif.Graph.Lemmas
import Verif.Spec.Count
import Verif.Spec.NormalForm
import Verif.Assignment.Props
import Verif.Factory.TreeShape
import Mathlib.Data.List.Dedup
/-!
# C40: connected components of the constraint graph, and the model counter built on them
-/
namespace Verif.Graph
open Verif Verif.Tree Verif.Assignment
variable {α : Type} [DecidableEq α]
set_option linter.unusedSectionVars false

/-- two variables occur in a common formula of the list -/
def Share (fs : List (Fm α)) (x y : α) : Prop := ∃ f ∈ fs, x ∈ f.vars ∧ y ∈ f.vars

/-- **C40**: the connected components of the constraint graph are found (the search never runs out of nodes), they partition the variables of the
formulas, all variables of one formula are in the same component, and each component is non-empty and connected by the formulas. -/
theorem C40_components_partial {content : Fm α → List α} (hc : ContentOk content) (fs : List (Fm α)) :
    ∃ cs, components (constraintGraph content fs) = some cs ∧ cs.flatten.Nodup ∧ (∀ x, x ∈ cs.flatten ↔ ∃ f ∈ fs, x ∈ f.vars) ∧
    (∀ f ∈ fs, ∀ c ∈ cs, (∃ x ∈ f.vars, x ∈ c) → ∀ y ∈ f.vars, y ∈ c) ∧
    ∀ c ∈ cs, c ≠ [] ∧ ∀ x ∈ c, ∀ y ∈ c, Relation.ReflTransGen (Share fs) x y := by
  obtain ⟨G, n, a⟩ := constraintGraph_spec hc fs
  obtain ⟨cs, h1, h2, h3, h4, h5⟩ := components_spec G
  refine ⟨cs, h1, h2, fun x => by rw [h3, n], ?_, ?_⟩
  · rintro f hf c hcs ⟨x, hx, hxc⟩ y hy
    by_cases e : x = y
    · exact e ▸ hxc
    · exact h4 c hcs x hxc y ((a x y).2 ⟨f, hf, hx, hy, e⟩)
  · intro c hcs
    obtain ⟨z, hz, hr⟩ := h5 c hcs
    have hshare : ∀ x y, Relation.ReflTransGen (Adj (constraintGraph content fs)) x y → Relation.ReflTransGen (Share fs) x y := fun x y h => by
      induction h with
      | refl => exact .refl
      | tail _ huw ih => obtain ⟨f, hf, h1, h2, _⟩ := (a _ _).1 huw; exact ih.tail ⟨f, hf, h1, h2⟩
    have hsym : ∀ x y, Relation.ReflTransGen (Share fs) x y → Relation.ReflTransGen (Share fs) y x := by
      intro x y h
      induction h with
      | refl => exact .refl
      | tail _ h ih => obtain ⟨f, hf, h1, h2⟩ := h; exact .head ⟨f, hf, h2, h1⟩ ih
    exact ⟨fun e => by rw [e] at hz; simp at hz, fun x hx y hy => (hsym _ _ (hshare _ _ (hr x hx))).trans (hshare _ _ (hr y hy))⟩

/-- formulas of the factory have a variable or are constants -/
def ConstOrVar (f : Fm α) : Prop := f = .tru ∨ f = .fls ∨ f.vars ≠ []

theorem varMap_spec {cs : List (List α)} (hn : cs.flatten.Nodup) {i : Nat} (hi : i < cs.length) {x : α} (hx : x ∈ cs[i]) : varMap cs x = some i := by
  unfold varMap
  have : (List.range cs.length).filter (fun j => decide (x ∈ (cs[j]?).getD [])) = [i] := by
    have hd : ∀ j (hj : j < cs.length), x ∈ cs[j] → j = i := by
      intro j hj hxj
      have hp := (List.nodup_flatten.1 hn).2
      by_contra hne
      rcases Nat.lt_or_ge j i with h | h
      · exact (List.pairwise_iff_getElem.1 hp j i hj hi h) hxj hx
      · exact (List.pairwise_iff_getElem.1 hp i j hi hj (by omega)) hx hxj
    have hnd : ((List.range cs.length).filter (fun j => decide (x ∈ (cs[j]?).getD []))).Nodup := List.Nodup.filter _ List.nodup_range
    have hmem : ∀ j, j ∈ (List.range cs.length).filter (fun j => decide (x ∈ (cs[j]?).getD [])) ↔ j = i := by
      intro j
      simp only [List.mem_filter, List.mem_range, decide_eq_true_eq]
      constructor
      · rintro ⟨h1, h2⟩
        rw [List.getElem?_eq_getElem h1] at h2
        exact hd j h1 h2
      · rintro rfl
        exact ⟨hi, by rw [List.getElem?_eq_getElem hi]; exact hx⟩
    generalize (List.range cs.length).filter (fun j => decide (x ∈ (cs[j]?).getD [])) = l at *
    match l, hnd, hmem with
    | [], _, h => exact absurd ((h i).2 rfl) (by simp)
    | [a], _, h => simpa using h a
    | a :: b :: l, hnd, h =>
      have h1 := (h a).1 (by simp)
      have h2 := (h b).1 (by simp)
      subst h1 h2; simp at hnd
  rw [this]; rfl

/-- the formula has a variable of the component -/
def touches (c : List α) (f : Fm α) : Bool := f.vars.any fun x => decide (x ∈ c)

/-- **C40**: splitting formulas by the components of their graph does not panic; formulas with variables land, in order, in the one component that
contains (all of) their variables, true is dropped and each falsum becomes a component of its own. -/
theorem C40_split_partial {content : Fm α → List α} (hc : ContentOk content) {fs : List (Fm α)} (hv : ∀ f ∈ fs, ConstOrVar f) {cs : List (List α)}
    (h : components (constraintGraph content fs) = some cs) :
    split content cs fs = some ((cs.map fun c => fs.filter (touches c)) ++ (fs.filter fun f => decide (f = .fls)).map fun f => [f]) := by
  obtain ⟨cs', h1, hn, hm, hs, _⟩ := C40_components_partial hc fs
  rw [h] at h1; cases h1
  have key : ∀ (todo done : List (Fm α)), done ++ todo = fs → foldOpt (splitStep content cs) ((cs.map fun c => done.filter (touches c)) ++ (done.filter fun f => decide (f = .fls)).map fun f => [f]) todo =
      some ((cs.map fun c => fs.filter (touches c)) ++ (fs.filter fun f => decide (f = .fls)).map fun f => [f]) := by
    intro todo
    induction todo with
    | nil => intro done e; simp at e; subst e; simp [foldOpt]
    | cons f todo ih =>
      intro done e
      have hf : f ∈ fs := by rw [← e]; simp
      have ih' := ih (done ++ [f]) (by simpa using e)
      rw [foldOpt, ← ih']
      unfold splitStep
      obtain ⟨hcn, hcm⟩ := hc f
      cases hcf : content f with
      | nil =>
        have hve : f.vars = [] := List.eq_nil_iff_forall_not_mem.2 fun x hx => by
          have := (hcm x).2 hx; rw [hcf] at this; simp at this
        have ht : ∀ c : List α, touches c f = false := fun c => by simp [touches, hve]
        dsimp only
        by_cases e' : f = .fls
        · rw [if_pos e']
          simp [List.filter_append, ht, e']
          simp [show ∀ c : List α, touches c .fls = false from fun c => by simp [touches]]
        · rw [if_neg e']
          simp [List.filter_append, ht, e']
      | cons x l =>
        have hx : x ∈ f.vars := (hcm x).1 (by rw [hcf]; simp)
        obtain ⟨c, hcc, hxc⟩ := List.mem_flatten.1 ((hm x).2 ⟨f, hf, hx⟩)
        obtain ⟨i, hi, rfl⟩ := List.mem_iff_getElem.1 hcc
        have hne : f ≠ .fls := by rintro rfl; simp at hx
        have ht : ∀ j (hj : j < cs.length), touches cs[j] f = decide (j = i) := by
          intro j hj
          by_cases e1 : j = i
          · subst e1; simp only [decide_true]; simp only [touches, List.any_eq_true]; exact ⟨x, hx, by simpa using hxc⟩
          · simp only [e1, decide_false]
            simp only [touches, List.any_eq_false]
            intro y hy hyc
            simp at hyc
            have := hs f hf cs[j] (by simp) ⟨y, hy, hyc⟩ x hx
            have e2 := varMap_spec hn hj this
            rw [varMap_spec hn hi hxc] at e2
            cases e2; exact e1 rfl
        dsimp only
        rw [varMap_spec hn hi hxc]
        dsimp only
        congr 1
        apply List.ext_getElem?
        intro j
        rw [List.getElem?_modify]
        rcases Nat.lt_or_ge j cs.length with hj | hj
        · rw [List.getElem?_append_left (by simpa using hj), List.getElem?_append_left (by simpa using hj)]
          simp only [List.getElem?_map, List.getElem?_eq_getElem hj, Option.map_some, List.filter_append]
          by_cases e1 : j = i
          · subst e1; simp [ht j hj]
          · have : ¬ i = j := fun h => e1 h.symm
            simp [ht j hj, e1, this]
        · rw [List.getElem?_append_right (by simpa using hj), List.getElem?_append_right (by simpa using hj)]
          have : ¬ i = j := by omega
          simp [this, List.filter_append, hne]
  have := key fs [] rfl
  unfold split
  simpa using this

/-! ### counting -/

theorem tAddAnd_keeps {c : Bool} {acc a : List (Fm α)} {f : Fm α} (h : tAddAnd c acc f = some a) : (∀ g ∈ acc, g ∈ a) ∧ (f = .tru ∨ f ∈ a) := by
  unfold tAddAnd at h
  split at h
  · simp at h; subst h; rename_i h1; exact ⟨fun _ h => h, .inl h1⟩
  split at h
  · simp at h
  split at h
  · simp at h; subst h; rename_i h1; exact ⟨fun _ h => h, .inr h1⟩
  · simp at h; subst h; exact ⟨fun g hg => by simp [hg], .inr (by simp)⟩

theorem foldAddAnd_keeps {c : Bool} : ∀ {fs acc a : List (Fm α)}, foldOpt (tAddAnd c) acc fs = some a → (∀ g ∈ acc, g ∈ a) ∧ ∀ f ∈ fs, f = .tru ∨ f ∈ a
  | [], acc, a, h => by simp [foldOpt] at h; subst h; simp
  | f :: fs, acc, a, h => by
    rw [foldOpt] at h
    cases e : tAddAnd c acc f with
    | none => simp [e] at h
    | some b =>
      simp only [e] at h
      obtain ⟨h1, h2⟩ := tAddAnd_keeps e
      obtain ⟨h3, h4⟩ := foldAddAnd_keeps h
      refine ⟨fun g hg => h3 g (h1 g hg), fun g hg => ?_⟩
      rcases List.mem_cons.1 hg with rfl | hg
      · exact h2.imp id (h3 _)
      · exact h4 g hg

theorem foldStepAnd_keeps {c : Bool} : ∀ {fs acc a : List (Fm α)}, foldOpt (tStepAnd c) acc fs = some a →
    (∀ g ∈ acc, g ∈ a) ∧ ∀ f ∈ fs, ∀ x ∈ f.vars, ∃ g ∈ a, x ∈ g.vars
  | [], acc, a, h => by simp [foldOpt] at h; subst h; simp
  | f :: fs, acc, a, h => by
    rw [foldOpt] at h
    cases e : tStepAnd c acc f with
    | none => simp [e] at h
    | some b =>
      simp only [e] at h
      obtain ⟨h3, h4⟩ := foldStepAnd_keeps h
      have : (∀ g ∈ acc, g ∈ b) ∧ ∀ x ∈ f.vars, ∃ g ∈ b, x ∈ g.vars := by
        unfold tStepAnd at e
        split at e
        · rename_i gs
          obtain ⟨h1, h2⟩ := foldAddAnd_keeps e
          refine ⟨h1, fun x hx => ?_⟩
          simp only [Fm.vars_and, List.mem_flatMap] at hx
          obtain ⟨g, hg, hxg⟩ := hx
          rcases h2 g hg with rfl | h2
          · simp at hxg
          · exact ⟨g, h2, hxg⟩
        · obtain ⟨h1, h2⟩ := tAddAnd_keeps e
          refine ⟨h1, fun x hx => ?_⟩
          rcases h2 with rfl | h2
          · simp at hx
          · exact ⟨f, h2, hx⟩
      refine ⟨fun g hg => h3 g (this.1 g hg), fun g hg x hx => ?_⟩
      rcases List.mem_cons.1 hg with rfl | hg
      · obtain ⟨g', hg', hx'⟩ := this.2 x hx; exact ⟨g', h3 g' hg', hx'⟩
      · exact h4 g hg x hx

/-- the factory's conjunction keeps all variables unless it collapses to false -/
theorem tAnd_keeps_vars (c : Bool) (fs : List (Fm α)) : tAnd c fs = .fls ∨ ∀ f ∈ fs, ∀ x ∈ f.vars, x ∈ (tAnd c fs).vars := by
  unfold tAnd
  split
  · exact .inl rfl
  · rename_i e
    refine .inr fun f hf x hx => ?_
    obtain ⟨g, hg, _⟩ := (foldStepAnd_keeps e).2 f hf x hx; simp at hg
  · rename_i g e
    refine .inr fun f hf x hx => ?_
    obtain ⟨g', hg, h⟩ := (foldStepAnd_keeps e).2 f hf x hx
    simp at hg; subst hg; exact h
  · rename_i a _ _ e
    refine .inr fun f hf x hx => ?_
    simp only [Fm.vars_and, List.mem_flatMap]
    exact (foldStepAnd_keeps e).2 f hf x hx

/-- the DNNF compiler counts the models over the variables of its formula (C26) -/
def CountOk (T : Tools α) : Prop := ∀ f W, W.Nodup → (∀ x, x ∈ W ↔ x ∈ f.vars) → T.dnnfCount f = count W (fun v => f.eval v)

theorem count_false {V : List α} {p : (α → Bool) → Bool} (h : ∀ v, p v = false) : count V p = 0 := by
  unfold count; rw [List.countP_eq_zero]; intro S _; simp [h]

theorem count_flatten : ∀ (cs : List (List α)) (p : List α → (α → Bool) → Bool), cs.flatten.Nodup → (∀ c ∈ cs, DependsOn (p c) c) →
    count cs.flatten (fun v => cs.all fun c => p c v) = (cs.map fun c => count c (p c)).prod
  | [], p, _, _ => by simp [count_nil]
  | c :: cs, p, hn, hd => by
    have hn' : (c ++ cs.flatten).Nodup := by simpa using hn
    have ih := count_flatten cs p (List.Nodup.of_append_right hn') fun c hc => hd c (by simp [hc])
    rw [List.map_cons, List.prod_cons, ← ih, List.flatten_cons]
    rw [← count_prod hn' (hd c (by simp))]
    · exact count_congr fun v => by simp
    · intro v w h
      apply Bool.eq_iff_iff.2
      simp only [List.all_eq_true]
      have : ∀ d ∈ cs, p d v = p d w := fun d hd' => hd d (by simp [hd']) v w fun x hx => h x (List.mem_flatten.2 ⟨d, hd', hx⟩)
      exact ⟨fun h d hd' => by rw [← this d hd']; exact h d hd', fun h d hd' => by rw [this d hd']; exact h d hd'⟩

theorem foldl_mul (g : List (Fm α) → Nat) : ∀ (l : List (List (Fm α))) (n : Nat), l.foldl (fun n c => n * g c) n = n * (l.map g).prod
  | [], n => by simp
  | c :: l, n => by rw [List.foldl_cons, foldl_mul g l, List.map_cons, List.prod_cons, Nat.mul_assoc]

/-- **C40**: the product of the component counts is the number of models over the variables of the formulas. -/
theorem C40_count_partial {content : Fm α → List α} (hc : ContentOk content) {T : Tools α} (hT : CountOk T) (cons : Bool) {fs : List (Fm α)} (hv : ∀ f ∈ fs, ConstOrVar f)
    {W : List α} (hW : W.Nodup) (hWv : ∀ x, x ∈ W ↔ ∃ f ∈ fs, x ∈ f.vars) :
    countC cons content T fs = some (count W fun v => fs.all fun f => f.eval v) := by
  obtain ⟨cs, h1, hn, hm, hs, hne⟩ := C40_components_partial hc fs
  unfold countC
  rw [h1]
  dsimp only
  rw [C40_split_partial hc hv h1]
  dsimp only
  rw [foldl_mul, Nat.one_mul, List.map_append, List.prod_append]
  congr 1
  -- the variables of a component are the variables of its formulas
  have hcv : ∀ c ∈ cs, ∀ x, x ∈ c ↔ ∃ f ∈ fs.filter (touches c), x ∈ f.vars := by
    intro c hcs x
    constructor
    · intro hx
      obtain ⟨f, hf, hxf⟩ := (hm x).1 (List.mem_flatten.2 ⟨c, hcs, hx⟩)
      exact ⟨f, List.mem_filter.2 ⟨hf, by simp only [touches, List.any_eq_true]; exact ⟨x, hxf, by simpa using hx⟩⟩, hxf⟩
    · rintro ⟨f, hf, hxf⟩
      obtain ⟨hf, ht⟩ := List.mem_filter.1 hf
      simp only [touches, List.any_eq_true, decide_eq_true_eq] at ht
      exact hs f hf c hcs ht x hxf
  have hcount : ∀ c ∈ cs, T.dnnfCount (tAnd cons (fs.filter (touches c))) = count c fun v => (fs.filter (touches c)).all fun f => f.eval v := by
    intro c hcs
    rcases tAnd_keeps_vars cons (fs.filter (touches c)) with e | e
    · have he : ∀ v, (fs.filter (touches c)).all (fun f => f.eval v) = false := fun v => by
        have := eval_tAnd cons (v := v) (fs := fs.filter (touches c))
        rw [e] at this; simpa using this.symm
      rw [count_false he, e, hT _ [] (by simp) (by simp), count_false (by simp)]
    · rw [hT _ c]
      · exact count_congr fun v => by rw [eval_tAnd]
      · exact (List.nodup_flatten.1 hn).1 c hcs
      · intro x
        rw [hcv c hcs]
        constructor
        · rintro ⟨f, hf, hx⟩; exact e f hf x hx
        · exact vars_tAnd cons _ x
  have hprod : ((cs.map fun c => fs.filter (touches c)).map fun c => T.dnnfCount (tAnd cons c)).prod = count cs.flatten fun v => cs.all fun c => (fs.filter (touches c)).all fun f => f.eval v := by
    rw [count_flatten cs (fun c v => (fs.filter (touches c)).all fun f => f.eval v) hn]
    · congr 1
      rw [List.map_map]
      exact List.map_congr_left fun c hcs => hcount c hcs
    · intro c hcs v w h
      apply Bool.eq_iff_iff.2
      simp only [List.all_eq_true]
      have : ∀ f ∈ fs.filter (touches c), f.eval v = f.eval w := fun f hf => Fm.eval_congr f fun x hx => h x ((hcv c hcs x).2 ⟨f, hf, hx⟩)
      exact ⟨fun h f hf => by rw [← this f hf]; exact h f hf, fun h f hf => by rw [this f hf]; exact h f hf⟩
  rw [hprod]
  have hpm : cs.flatten.Perm W := (List.perm_ext_iff_of_nodup hn hW).2 fun x => by rw [hm, hWv]
  rw [← count_perm hpm hn]
  by_cases hfls : Fm.fls ∈ fs
  · have h0 : ∀ v : α → Bool, (fs.all fun f => f.eval v) = false := fun v => by
      rw [List.all_eq_false]; exact ⟨_, hfls, by simp⟩
    rw [count_false h0]
    have : ((fs.filter fun f => decide (f = .fls)).map fun f => [f]).map (fun c => T.dnnfCount (tAnd cons c)) ≠ [] ∧
        (0 : Nat) ∈ ((fs.filter fun f => decide (f = .fls)).map fun f => [f]).map (fun c => T.dnnfCount (tAnd cons c)) := by
      have hmem : (0 : Nat) ∈ ((fs.filter fun f => decide (f = .fls)).map fun f => [f]).map (fun c => T.dnnfCount (tAnd cons c)) := by
        simp only [List.mem_map, List.mem_filter, decide_eq_true_eq, exists_exists_and_eq_and]
        refine ⟨.fls, ⟨hfls, rfl⟩, ?_⟩
        rw [hT _ [] (by simp)]
        · exact count_false fun v => by rw [eval_tAnd]; simp
        · intro x
          have : x ∉ (tAnd cons [(Fm.fls : Fm α)]).vars := fun hx => by
            obtain ⟨g, hg, hx⟩ := vars_tAnd cons _ x hx
            simp at hg; subst hg; simp at hx
          simp [this]
      exact ⟨List.ne_nil_of_mem hmem, hmem⟩
    have hz : ∀ l : List Nat, 0 ∈ l → l.prod = 0 := by
      intro l
      induction l with
      | nil => simp
      | cons a l ih =>
        intro h
        rw [List.prod_cons]
        rcases List.mem_cons.1 h with e | e
        · rw [← e, Nat.zero_mul]
        · rw [ih e, Nat.mul_zero]
    rw [hz _ this.2, Nat.mul_zero]
  · have : (fs.filter fun f => decide (f = .fls)) = [] := List.filter_eq_nil_iff.2 fun f hf => by
      simp; rintro rfl; exact hfls hf
    rw [this]
    simp only [List.map_nil, List.prod_nil, Nat.mul_one]
    refine count_congr fun v => ?_
    apply Bool.eq_iff_iff.2
    simp only [List.all_eq_true, List.mem_filter, and_imp]
    constructor
    · intro h f hf
      rcases hv f hf with rfl | rfl | hvf
      · simp
      · exact absurd hf hfls
      · obtain ⟨x, hx⟩ := List.exists_mem_of_ne_nil _ hvf
        obtain ⟨c, hcs, hxc⟩ := List.mem_flatten.1 ((hm x).2 ⟨f, hf, hx⟩)
        exact h c hcs f hf (by simp only [touches, List.any_eq_true]; exact ⟨x, hx, by simpa using hxc⟩)
    · intro h c _ f hf _; exact h f hf

/-! ### the counter -/

theorem addLit_getD {a : Asg α} (hd : ∀ x ∈ a.pos, x ∉ a.neg) (l : Lit α) : (∀ x ∈ ((addLit a l).getD a).pos, x ∉ ((addLit a l).getD a).neg) ∧
    (∀ x, (x ∈ ((addLit a l).getD a).pos ∨ x ∈ ((addLit a l).getD a).neg) ↔ (x ∈ a.pos ∨ x ∈ a.neg) ∨ x = l.var) ∧
    ∀ v, Compl a v → l.eval v = true → Compl ((addLit a l).getD a) v := by
  unfold addLit
  rcases l with ⟨y, b⟩
  cases b
  · simp only [Bool.false_eq_true, if_false]
    by_cases hy : y ∈ a.pos
    · simp only [hy, if_true, Option.getD_none]
      refine ⟨hd, fun x => ⟨.inl, fun h => h.elim id fun e => .inl (e ▸ hy)⟩, fun v hv _ => hv⟩
    · simp only [hy, if_false, Option.getD_some]
      refine ⟨fun x hx => ?_, fun x => ?_, fun v hv hl => ⟨hv.1, fun x hx => ?_⟩⟩
      · rw [List.mem_insert_iff]; rintro (rfl | h)
        · exact hy hx
        · exact hd x hx h
      · rw [List.mem_insert_iff]
        constructor
        · rintro (h | h | h)
          · exact .inl (.inl h)
          · exact .inr h
          · exact .inl (.inr h)
        · rintro ((h | h) | h)
          · exact .inl h
          · exact .inr (.inr h)
          · exact .inr (.inl h)
      · rcases List.mem_insert_iff.1 hx with rfl | h
        · simpa [Lit.eval] using hl
        · exact hv.2 x h
  · simp only [if_true]
    by_cases hy : y ∈ a.neg
    · simp only [hy, if_true, Option.getD_none]
      refine ⟨hd, fun x => ⟨.inl, fun h => h.elim id fun e => .inr (e ▸ hy)⟩, fun v hv _ => hv⟩
    · simp only [hy, if_false, Option.getD_some]
      refine ⟨fun x hx => ?_, fun x => ?_, fun v hv hl => ⟨fun x hx => ?_, hv.2⟩⟩
      · rcases List.mem_insert_iff.1 hx with rfl | h
        · exact hy
        · exact hd x h
      · rw [List.mem_insert_iff]
        constructor
        · rintro ((h | h) | h)
          · exact .inr h
          · exact .inl (.inl h)
          · exact .inl (.inr h)
        · rintro ((h | h) | h)
          · exact .inl (.inr h)
          · exact .inr h
          · exact .inl (.inl h)
      · rcases List.mem_insert_iff.1 hx with rfl | h
        · simpa [Lit.eval] using hl
        · exact hv.1 x h

structure BbOk (fs : List (Fm α)) (r : Asg α × List α) : Prop where
  disj : ∀ x ∈ r.1.pos, x ∉ r.1.neg
  nodup : r.2.Nodup
  vars : ∀ x, x ∈ r.2 ↔ x ∈ r.1.pos ∨ x ∈ r.1.neg
  mem : ∀ x ∈ r.2, ∃ f ∈ fs, x ∈ f.vars
  compl : ∀ v, (∀ f ∈ fs, f.eval v = true) → Compl r.1 v

theorem simpleBackbone_spec (fs : List (Fm α)) : BbOk fs (simpleBackbone fs) := by
  have key : ∀ (todo done : List (Fm α)) (r : Asg α × List α), BbOk done r → BbOk (done ++ todo) (todo.foldl bbStep r) := by
    intro todo
    induction todo with
    | nil => intro done r h; simpa using h
    | cons f todo ih =>
      intro done r h
      rw [List.foldl_cons, show done ++ f :: todo = (done ++ [f]) ++ todo by simp]
      refine ih _ _ ?_
      have hsame : BbOk (done ++ [f]) r := ⟨h.disj, h.nodup, h.vars, fun x hx => by
          obtain ⟨g, hg, hx⟩ := h.mem x hx; exact ⟨g, by simp [hg], hx⟩, fun v hv => h.compl v fun g hg => hv g (by simp [hg])⟩
      cases f with
      | lit l =>
        obtain ⟨h1, h2, h3⟩ := addLit_getD h.disj l
        refine ⟨h1, h.nodup.insert, fun x => ?_, fun x hx => ?_, fun v hv => ?_⟩
        · show x ∈ r.2.insert l.var ↔ x ∈ ((addLit r.1 l).getD r.1).pos ∨ x ∈ ((addLit r.1 l).getD r.1).neg
          rw [List.mem_insert_iff, h.vars, h2, or_comm]
        · rcases List.mem_insert_iff.1 hx with rfl | hx
          · exact ⟨.lit l, by simp, by simp⟩
          · exact hsame.mem x hx
        · exact h3 v (hsame.compl v hv) (by simpa using hv (.lit l) (by simp))
      | _ => exact hsame
  have := key fs [] (empty, []) ⟨by simp [empty], by simp, by simp [empty], by simp, by simp [Assignment.Compl, empty]⟩
  simpa [simpleBackbone] using this

theorem compl_get {a : Asg α} {v : α → Bool} : Compl a v ↔ ∀ x ∈ asgVars a, (x ∈ a.pos → v x = true) ∧ (x ∈ a.neg → v x = false) := by
  constructor
  · intro h x _; exact ⟨h.1 x, h.2 x⟩
  · intro h; exact ⟨fun x hx => (h x (by simp [asgVars, hx])).1 hx, fun x hx => (h x (by simp [asgVars, hx])).2 hx⟩

/-- fixing the values of variables that do not matter otherwise -/
theorem count_fix (val : α → Bool) : ∀ (B : List α) {W : List α} {q : (α → Bool) → Bool}, (B ++ W).Nodup → DependsOn q W →
    count (B ++ W) (fun v => B.all (fun x => v x == val x) && q v) = count W q
  | [], W, q, _, _ => by simp
  | b :: B, W, q, hn, hq => by
    rw [List.cons_append, List.nodup_cons] at hn
    have hb : b ∉ B := fun h => hn.1 (by simp [h])
    have hbW : b ∉ W := fun h => hn.1 (by simp [h])
    rw [List.cons_append, count_cons hn.1, ← count_fix val B hn.2 hq]
    have hgen : ∀ (c : Bool) v, ((b :: B).all (fun x => setVal v b c x == val x) && q (setVal v b c)) = ((c == val b) && (B.all (fun x => v x == val x) && q v)) := by
      intro c v
      rw [dependsOn_setVal hq hbW, List.all_cons]
      have : B.all (fun x => setVal v b c x == val x) = B.all (fun x => v x == val x) := by
        apply Bool.eq_iff_iff.2
        simp only [List.all_eq_true]
        have he : ∀ x ∈ B, setVal v b c x = v x := fun x hx => by
          simp only [setVal]; have : x ≠ b := fun e => hb (e ▸ hx)
          simp [this]
        exact ⟨fun h x hx => by rw [← he x hx]; exact h x hx, fun h x hx => by rw [he x hx]; exact h x hx⟩
      rw [this]
      simp [setVal, Bool.and_assoc]
    rw [count_congr (hgen false), count_congr (hgen true)]
    cases val b
    · rw [count_false (V := B ++ W) (p := fun v => (true == false) && _) (by simp)]; simp
    · rw [count_false (V := B ++ W) (p := fun v => (false == true) && _) (by simp)]; simp

/-- `gs` is a version of `fs` with additional variables `A` whose values are determined by the other variables -/
structure Extends (A : List α) (fs gs : List (Fm α)) : Prop where
  sound : ∀ v, (∀ g ∈ gs, g.eval v = true) → ∀ f ∈ fs, f.eval v = true
  complete : ∀ v, (∀ f ∈ fs, f.eval v = true) → ∃ w, (∀ x, x ∉ A → w x = v x) ∧ ∀ g ∈ gs, g.eval w = true
  unique : ∀ v w, (∀ x, x ∉ A → w x = v x) → (∀ g ∈ gs, g.eval v = true) → (∀ g ∈ gs, g.eval w = true) → ∀ x ∈ A, v x = w x

theorem count_extends : ∀ (A : List α) {V : List α} {p q : (α → Bool) → Bool}, (A ++ V).Nodup → DependsOn q V →
    (∀ v, p v = true → q v = true) → (∀ v, q v = true → ∃ w, (∀ x, x ∉ A → w x = v x) ∧ p w = true) →
    (∀ v w, (∀ x, x ∉ A → w x = v x) → p v = true → p w = true → ∀ x ∈ A, v x = w x) → count (A ++ V) p = count V q
  | [], V, p, q, _, _, h1, h2, _ => by
    refine count_congr fun v => Bool.eq_iff_iff.2 ⟨h1 v, fun h => ?_⟩
    obtain ⟨w, hw, hp⟩ := h2 v h
    have : w = v := funext fun x => hw x (by simp)
    rwa [← this]
  | a :: A, V, p, q, hn, hq, h1, h2, h3 => by
    rw [List.cons_append, List.nodup_cons] at hn
    have haV : a ∉ V := fun h => hn.1 (by simp [h])
    have hoff : ∀ (v : α → Bool) (b c : Bool) x, x ∉ a :: A → setVal v a b x = setVal v a c x := fun v b c x hx => by
      have : x ≠ a := fun e => hx (by simp [e])
      simp [setVal, this]
    have hdis : ∀ v, ¬ (p (setVal v a false) = true ∧ p (setVal v a true) = true) := fun v ⟨e1, e2⟩ => by
      have := h3 _ _ (hoff v true false) e1 e2 a (by simp)
      simp [setVal] at this
    have hsum : count (A ++ V) (fun v => p (setVal v a false)) + count (A ++ V) (fun v => p (setVal v a true)) = count (A ++ V) (fun v => p (setVal v a false) || p (setVal v a true)) := by
      unfold count
      induction (A ++ V).sublists' with
      | nil => simp
      | cons S L ih =>
        simp only [List.countP_cons] at ih ⊢
        have := hdis (asgOf S)
        cases e1 : p (setVal (asgOf S) a false) <;> cases e2 : p (setVal (asgOf S) a true) <;> simp [e1, e2] at this ⊢ <;> omega
    rw [List.cons_append, count_cons hn.1, hsum]
    refine count_extends A hn.2 hq ?_ ?_ ?_
    · intro v h
      simp only [Bool.or_eq_true] at h
      rcases h with h | h
      · rw [← dependsOn_setVal hq haV v false]; exact h1 _ h
      · rw [← dependsOn_setVal hq haV v true]; exact h1 _ h
    · intro v h
      obtain ⟨w, hw, hp⟩ := h2 v h
      refine ⟨fun x => if x = a then v a else w x, fun x hx => ?_, ?_⟩
      · by_cases e : x = a
        · simp [e]
        · simp only [e, if_false]; exact hw x (by simp [e, hx])
      · have : ∀ b, setVal (fun x => if x = a then v a else w x) a b = setVal w a b := fun b => by
          funext x; by_cases e : x = a <;> simp [setVal, e]
        have hwa : setVal w a (w a) = w := by funext x; by_cases e : x = a <;> simp [setVal, e]
        rw [this, this]
        cases e : w a
        · rw [e] at hwa; simp [hwa, hp]
        · rw [e] at hwa; simp [hwa, hp]
    · intro v w hvw hv hw x hx
      simp only [Bool.or_eq_true] at hv hw
      have hgen : ∀ b c, p (setVal v a b) = true → p (setVal w a c) = true → v x = w x := by
        intro b c hb hc
        have hxa : x ≠ a := fun e => hn.1 (by subst e; simp [hx])
        have := h3 _ _ (fun y hy => by
          have hya : y ≠ a := fun e => hy (by simp [e])
          simp only [setVal, hya, if_false]
          exact hvw y fun h => hy (by simp [h])) hb hc x (by simp [hx])
        simpa [setVal, hxa] using this
      rcases hv with hv | hv <;> rcases hw with hw | hw
      · exact hgen _ _ hv hw
      · exact hgen _ _ hv hw
      · exact hgen _ _ hv hw
      · exact hgen _ _ hv hw

theorem vars_ne_of_ops {a : List (Fm α)} (h : 2 ≤ a.length) (ha : ∀ g ∈ a, g.vars ≠ []) : a.flatMap Fm.vars ≠ [] := by
  match a, h with
  | g :: _ :: _, _ =>
    intro e
    have := ha g (by simp)
    simp only [List.flatMap_cons, List.append_eq_nil_iff] at e
    exact this e.1

theorem restrict_clause {cons : Bool} {a : Asg α} {f : Fm α} (h : Spec.isClause f = true) :
    ConstOrVar (restrict cons a f) ∧ ∀ gs, restrict cons a f ≠ .and gs := by
  have hlit : ∀ l, restrictLit a l = .tru ∨ restrictLit a l = .fls ∨ restrictLit a l = .lit l := fun l => by
    unfold restrictLit; split <;> split <;> (try split) <;> simp
  cases f with
  | lit l => rw [restrict]; rcases hlit l with e | e | e <;> simp [e, ConstOrVar]
  | or fs =>
    rw [restrict, restrictL_eq]
    have hop : ∀ g, OrOp (fs.map (restrict cons a)) g → ∃ l, g = .lit l := by
      intro g hg
      have hm : ∀ g ∈ fs.map (restrict cons a), g = .tru ∨ g = .fls ∨ ∃ l, g = .lit l := by
        intro g hg
        obtain ⟨f, hf, rfl⟩ := List.mem_map.1 hg
        have := List.all_eq_true.1 h f hf
        cases f with
        | lit l => rw [restrict]; exact (hlit l).imp id fun h => h.imp id fun h => ⟨l, h⟩
        | _ => simp [Spec.isLit] at this
      rcases hg.2.2 with h | ⟨gs, h, _⟩
      · rcases hm g h.1 with e | e | e
        · exact absurd e hg.1
        · exact absurd e hg.2.1
        · exact e
      · rcases hm _ h with e | e | ⟨l, e⟩ <;> cases e
    refine tOr_elim (P := fun r => ConstOrVar r ∧ ∀ gs, r ≠ .and gs) (by simp [ConstOrVar]) (by simp [ConstOrVar]) ?_ ?_
    · intro g hg; obtain ⟨l, rfl⟩ := hop g hg; simp [ConstOrVar]
    · intro b hb _ hg
      refine ⟨.inr (.inr ?_), by simp⟩
      rw [Fm.vars_or]
      refine vars_ne_of_ops hb fun g hgb => ?_
      obtain ⟨l, rfl⟩ := hop g (hg g hgb); simp
  | _ => simp [Spec.isClause] at h

theorem restrict_cnf {cons : Bool} {a : Asg α} {f : Fm α} (h : Spec.isCNF f = true) : ConstOrVar (restrict cons a f) := by
  cases f with
  | tru => simp [restrict, ConstOrVar]
  | fls => simp [restrict, ConstOrVar]
  | and fs =>
    rw [restrict, restrictL_eq]
    have hop : ∀ g, AndOp (fs.map (restrict cons a)) g → g.vars ≠ [] := by
      intro g hg
      rcases hg.2.2 with ⟨h', _⟩ | ⟨gs, h', _⟩
      · obtain ⟨f, hf, rfl⟩ := List.mem_map.1 h'
        rcases (restrict_clause (List.all_eq_true.1 h f hf)).1 with e | e | e
        · exact absurd e hg.1
        · exact absurd e hg.2.1
        · exact e
      · obtain ⟨f, hf, e⟩ := List.mem_map.1 h'
        exact absurd e ((restrict_clause (List.all_eq_true.1 h f hf)).2 gs)
    refine tAnd_elim (P := ConstOrVar) (.inl rfl) (.inr (.inl rfl)) (fun g hg => .inr (.inr (hop g hg))) ?_
    intro b hb _ hg
    refine .inr (.inr ?_)
    rw [Fm.vars_and]
    exact vars_ne_of_ops hb fun g hgb => hop g (hg g hgb)
  | lit l => exact (restrict_clause (by simp [Spec.isClause])).1
  | or fs => exact (restrict_clause (by simpa [Spec.isCNF] using h)).1
  | _ => simp [Spec.isCNF, Spec.isClause] at h

/-- **C40**: the counter built on the components.  It panics exactly if a variable of the formulas is missing in the given set, and reports an error
exactly if the normal form conversion does.  Otherwise — the conversion yields conjunctive normal forms whose additional variables (if any) are fresh
and determined by the others, and the DNNF counts are right — the result is the number of models over the given variables. -/
theorem C40_counter_partial {content : Fm α → List α} (hc : ContentOk content) {T : Tools α} (hT : CountOk T) (cons : Bool) {fs : List (Fm α)} (hv : ∀ f ∈ fs, ConstOrVar f)
    {vars : List α} (hn : vars.Nodup)
    (hcnf : ∀ gs, fs.mapM T.cnf = some gs → (∀ g ∈ gs, Spec.isCNF g = true) ∧ ∃ A, (A ++ vars).Nodup ∧ (∀ g ∈ gs, ∀ x ∈ g.vars, x ∈ A ++ vars) ∧ Extends A fs gs) :
    countTop cons content T vars fs =
      if ∃ f ∈ fs, ∃ x ∈ f.vars, x ∉ vars then .panic
      else if vars ≠ [] ∧ fs.mapM T.cnf = none then .error
      else .ok (count vars fun v => fs.all fun f => f.eval v) := by
  unfold countTop
  by_cases hp : ∃ f ∈ fs, ∃ x ∈ f.vars, x ∉ vars
  · rw [if_pos hp, if_pos]
    obtain ⟨f, hf, x, hx, hxv⟩ := hp
    simp only [Bool.not_eq_true', List.all_eq_false]
    exact ⟨x, List.mem_flatMap.2 ⟨f, hf, hx⟩, by simpa using hxv⟩
  rw [if_neg hp, if_neg (by
    simp only [Bool.not_eq_true', List.all_eq_false, not_exists, not_and, List.mem_flatMap]
    intro x ⟨f, hf, hx⟩ hxv
    exact hp ⟨f, hf, x, hx, by simpa using hxv⟩)]
  have hsub : ∀ f ∈ fs, ∀ x ∈ f.vars, x ∈ vars := fun f hf x hx => by
    by_contra h; exact hp ⟨f, hf, x, hx, h⟩
  by_cases he : vars = []
  · rw [if_pos he, if_neg (c := vars ≠ [] ∧ _) (by simp [he])]
    have hconst : ∀ f ∈ fs, f = .tru ∨ f = .fls := fun f hf => by
      rcases hv f hf with h | h | h
      · exact .inl h
      · exact .inr h
      · obtain ⟨x, hx⟩ := List.exists_mem_of_ne_nil _ h
        have := hsub f hf x hx
        rw [he] at this; simp at this
    have : (fs.all fun f => decide (f = .tru)) = fs.all fun f => f.eval fun _ => false := by
      apply Bool.eq_iff_iff.2
      simp only [List.all_eq_true, decide_eq_true_eq]
      constructor
      · intro h f hf; rw [h f hf]; simp
      · intro h f hf
        rcases hconst f hf with e | e
        · exact e
        · have := h f hf; rw [e] at this; simp at this
    rw [he, count_nil, ← this]
    split <;> rfl
  rw [if_neg he]
  cases hm : fs.mapM T.cnf with
  | none => rw [if_pos ⟨he, rfl⟩]
  | some gs =>
    rw [if_neg (by simp)]
    obtain ⟨hgs, A, hAn, hAv, hE⟩ := hcnf gs hm
    dsimp only
    have hB := simpleBackbone_spec gs
    unfold simplify
    dsimp only
    generalize simpleBackbone gs = bb at *
    have hU : ∀ u ∈ (gs.map (restrict cons bb.1)).filter (fun f => decide (f ≠ .tru)), ConstOrVar u := fun u hu => by
      obtain ⟨g, hg, rfl⟩ := List.mem_map.1 (List.mem_filter.1 hu).1
      exact restrict_cnf (hgs g hg)
    have hUv : ∀ u ∈ (gs.map (restrict cons bb.1)).filter (fun f => decide (f ≠ .tru)), ∀ x ∈ u.vars, (∃ g ∈ gs, x ∈ g.vars) ∧ x ∉ bb.2 := fun u hu x hx => by
      obtain ⟨g, hg, rfl⟩ := List.mem_map.1 (List.mem_filter.1 hu).1
      have := restrict_vars hB.disj g x hx
      refine ⟨⟨g, hg, this.1⟩, fun h => this.2 ?_⟩
      have := (hB.vars x).1 h
      simpa [asgVars] using this
    have hUe : ∀ v, (∀ g ∈ gs, g.eval v = true) ↔ Compl bb.1 v ∧ ∀ u ∈ (gs.map (restrict cons bb.1)).filter (fun f => decide (f ≠ .tru)), u.eval v = true := by
      intro v
      constructor
      · intro h
        refine ⟨hB.compl v h, fun u hu => ?_⟩
        obtain ⟨g, hg, rfl⟩ := List.mem_map.1 (List.mem_filter.1 hu).1
        rw [restrict_eval (hB.compl v h)]; exact h g hg
      · rintro ⟨h1, h2⟩ g hg
        rw [← restrict_eval (cons := cons) h1]
        by_cases e : restrict cons bb.1 g = .tru
        · rw [e]; simp
        · exact h2 _ (List.mem_filter.2 ⟨List.mem_map.2 ⟨g, hg, rfl⟩, by simpa using e⟩)
    generalize (gs.map (restrict cons bb.1)).filter (fun f => decide (f ≠ .tru)) = U at *
    -- variables of the simplified formulas
    let W := (U.flatMap Fm.vars).dedup
    have hWn : W.Nodup := List.nodup_dedup _
    have hWm : ∀ x, x ∈ W ↔ ∃ u ∈ U, x ∈ u.vars := fun x => by simp [W, List.mem_flatMap]
    rw [C40_count_partial hc hT cons hU hWn hWm]
    dsimp only
    congr 1
    have hUd : DependsOn (fun v => U.all fun u => u.eval v) W := by
      intro v w h
      apply Bool.eq_iff_iff.2
      simp only [List.all_eq_true]
      have : ∀ u ∈ U, u.eval v = u.eval w := fun u hu => Fm.eval_congr u fun x hx => h x ((hWm x).2 ⟨u, hu, hx⟩)
      exact ⟨fun h f hf => by rw [← this f hf]; exact h f hf, fun h f hf => by rw [this f hf]; exact h f hf⟩
    -- the additional variables that were simplified away
    let M := A.filter fun x => !(bb.2.contains x) && !(W.contains x)
    have hperm : (A ++ vars).Perm (bb.2 ++ ((dontCare vars U bb.2 ++ M) ++ W)) := by
      have hdn : (dontCare vars U bb.2).Nodup := (hn.filter _).filter _
      have hAn' : A.Nodup := (List.nodup_append.1 hAn).1
      have hdisj : ∀ x ∈ A, x ∉ vars := fun x hx h => (List.nodup_append.1 hAn).2.2 x hx x h rfl
      have hmd : ∀ x, x ∈ dontCare vars U bb.2 ↔ x ∈ vars ∧ x ∉ W ∧ x ∉ bb.2 := fun x => by
        have e1 : (!(U.flatMap Fm.vars).contains x) = true ↔ x ∉ W := by simp only [W, List.mem_dedup]; simp
        have e2 : (!bb.2.contains x) = true ↔ x ∉ bb.2 := by simp
        simp only [dontCare, List.mem_filter, and_assoc, e1, e2]
      have hmM : ∀ x, x ∈ M ↔ x ∈ A ∧ x ∉ bb.2 ∧ x ∉ W := fun x => by simp only [M, List.mem_filter]; simp
      have hWb : ∀ x ∈ W, x ∉ bb.2 := fun x hx => by
        obtain ⟨u, hu, hx⟩ := (hWm x).1 hx; exact (hUv u hu x hx).2
      refine (List.perm_ext_iff_of_nodup hAn ?_).2 fun x => ?_
      · refine List.nodup_append.2 ⟨hB.nodup, List.nodup_append.2 ⟨List.nodup_append.2 ⟨hdn, hAn'.filter _, ?_⟩, hWn, ?_⟩, ?_⟩
        · intro a ha b hb e; subst e; exact hdisj a ((hmM a).1 hb).1 ((hmd a).1 ha).1
        · intro a ha b hb e; subst e
          rcases List.mem_append.1 ha with h | h
          · exact ((hmd a).1 h).2.1 hb
          · exact ((hmM a).1 h).2.2 hb
        · intro a ha b hb e; subst e
          rcases List.mem_append.1 hb with h | h
          · rcases List.mem_append.1 h with h | h
            · exact ((hmd a).1 h).2.2 ha
            · exact ((hmM a).1 h).2.1 ha
          · exact hWb a h ha
      · simp only [List.mem_append, hmd, hmM]
        constructor
        · intro h
          by_cases h1 : x ∈ bb.2
          · exact .inl h1
          · by_cases h2 : x ∈ W
            · exact .inr (.inr h2)
            · rcases h with h | h
              · exact .inr (.inl (.inr ⟨h, h1, h2⟩))
              · exact .inr (.inl (.inl ⟨h, h2, h1⟩))
        · rintro (h | (h | h) | h)
          · obtain ⟨g, hg, hx⟩ := hB.mem x h
            exact List.mem_append.1 (hAv g hg x hx)
          · exact .inr h.1
          · exact .inl h.1
          · obtain ⟨u, hu, hx⟩ := (hWm x).1 h
            obtain ⟨g, hg, hx⟩ := (hUv u hu x hx).1
            exact List.mem_append.1 (hAv g hg x hx)
    have hn2 : (bb.2 ++ ((dontCare vars U bb.2 ++ M) ++ W)).Nodup := hperm.nodup_iff.1 hAn
    have hn3 := (List.nodup_append.1 hn2).2.1
    have hcompl : ∀ v, Compl bb.1 v ↔ (bb.2.all fun x => v x == decide (x ∈ bb.1.pos)) = true := fun v => by
      simp only [List.all_eq_true, beq_iff_eq]
      constructor
      · intro h x hx
        rcases (hB.vars x).1 hx with h' | h'
        · rw [h.1 x h']; simp [h']
        · rw [h.2 x h']; simp; exact fun h'' => hB.disj x h'' h'
      · intro h
        refine ⟨fun x hx => ?_, fun x hx => ?_⟩
        · rw [h x ((hB.vars x).2 (.inl hx))]; simpa using hx
        · rw [h x ((hB.vars x).2 (.inr hx))]; simp; exact fun h'' => hB.disj x h'' hx
    have e1 : count vars (fun v => fs.all fun f => f.eval v) = count (A ++ vars) (fun v => gs.all fun g => g.eval v) := by
      refine (count_extends A hAn ?_ ?_ ?_ ?_).symm
      · intro v w h
        apply Bool.eq_iff_iff.2
        simp only [List.all_eq_true]
        have : ∀ u ∈ fs, u.eval v = u.eval w := fun u hu => Fm.eval_congr u fun x hx => h x (hsub u hu x hx)
        exact ⟨fun h f hf => by rw [← this f hf]; exact h f hf, fun h f hf => by rw [this f hf]; exact h f hf⟩
      · intro v; simp only [List.all_eq_true]; exact hE.sound v
      · intro v; simp only [List.all_eq_true]; exact hE.complete v
      · intro v w; simp only [List.all_eq_true]; exact hE.unique v w
    have e2 : count (A ++ vars) (fun v => gs.all fun g => g.eval v) = 2 ^ (dontCare vars U bb.2 ++ M).length * count W fun v => U.all fun u => u.eval v := by
      rw [count_perm hperm hAn, ← count_dontCare _ hn3 hUd, ← count_fix (fun x => decide (x ∈ bb.1.pos)) bb.2 hn2]
      · refine count_congr fun v => Bool.eq_iff_iff.2 ?_
        rw [Bool.and_eq_true, ← hcompl, List.all_eq_true, List.all_eq_true]
        exact hUe v
      · intro v w h; exact hUd v w fun x hx => h x (by simp [hx])
    rw [e1, e2]
    by_cases hM : M = []
    · rw [hM, List.append_nil, Nat.mul_comm]
    · -- an additional variable was lost: no models
      have h0 : count W (fun v => U.all fun u => u.eval v) = 0 := by
        obtain ⟨m, hm⟩ := List.exists_mem_of_ne_nil _ hM
        have hm' : m ∈ A ∧ m ∉ bb.2 ∧ m ∉ W := by simp only [M, List.mem_filter] at hm; simpa using hm
        refine count_false fun v => ?_
        by_contra hne
        rw [Bool.not_eq_false] at hne
        let v0 : α → Bool := fun x => if x ∈ bb.2 then decide (x ∈ bb.1.pos) else v x
        have hv0 : ∀ b, ∀ g ∈ gs, g.eval (setVal v0 m b) = true := by
          intro b
          rw [hUe]
          constructor
          · rw [hcompl, List.all_eq_true]
            intro x hx
            have : x ≠ m := fun e => hm'.2.1 (e ▸ hx)
            simp [setVal, this, v0, hx]
          · rw [← List.all_eq_true, ← hne]
            refine hUd _ _ fun x hx => ?_
            have : x ≠ m := fun e => hm'.2.2 (e ▸ hx)
            have hxb : x ∉ bb.2 := by obtain ⟨u, hu, hx⟩ := (hWm x).1 hx; exact (hUv u hu x hx).2
            simp [setVal, this, v0, hxb]
        have := hE.unique (setVal v0 m false) (setVal v0 m true) (fun x hx => by
          have : x ≠ m := fun e => hx (e ▸ hm'.1)
          simp [setVal, this]) (hv0 false) (hv0 true) m hm'.1
        simp [setVal] at this
      rw [h0]; simp

/-! ### examples -/

section Examples

def exA : Fm Nat := .or [.lit ⟨1, true⟩, .lit ⟨2, true⟩]
def exB : Fm Nat := .or [.lit ⟨2, false⟩, .lit ⟨3, true⟩]
def exC : Fm Nat := .or [.lit ⟨4, true⟩, .lit ⟨5, true⟩]
def exContent (f : Fm Nat) : List Nat := f.vars.dedup

theorem exContent_ok : ContentOk exContent := fun f => ⟨List.nodup_dedup _, fun x => List.mem_dedup⟩

/-- two clauses sharing a variable and one on its own -/
example : components (constraintGraph exContent [exA, exC, exB]) = some [[1, 2, 3], [4, 5]] := by decide +kernel
example : split exContent [[1, 2, 3], [4, 5]] [exA, exC, .fls, exB, .tru] = some [[exA, exB], [exC], [.fls]] := by decide +kernel
example : ∀ f ∈ [exA, exC, .fls, exB, .tru], ConstOrVar f := by
  intro f hf; simp at hf
  rcases hf with rfl | rfl | rfl | rfl | rfl <;> simp [ConstOrVar, exA, exB, exC]

/-- a counter satisfying the hypotheses -/
def exTools : Tools Nat := ⟨some, fun f => count f.vars.dedup fun v => f.eval v⟩
theorem exTools_ok : CountOk exTools := fun f W hW h => by
  show count f.vars.dedup (fun v => f.eval v) = _
  exact count_perm ((List.perm_ext_iff_of_nodup (List.nodup_dedup _) hW).2 fun x => by rw [h, List.mem_dedup]) (List.nodup_dedup _) _
/-- one unit literal, two clauses and a variable that does not occur -/
example : countTop true exContent exTools [1, 2, 3, 4, 5, 6] [.lit ⟨2, true⟩, exB, exC] = .ok 12 := by
  rw [C40_counter_partial exContent_ok exTools_ok true (by simp [ConstOrVar, exB, exC]) (by decide)]
  · rw [if_neg (by simp [exB, exC])]
    rw [if_neg (by decide +kernel)]
    decide +kernel
  · intro gs h
    have : gs = [.lit ⟨2, true⟩, exB, exC] := by
      have h2 : [Fm.lit (⟨2, true⟩ : Lit Nat), exB, exC].mapM exTools.cnf = some [.lit ⟨2, true⟩, exB, exC] := by rfl
      rw [h2] at h; exact (Option.some.inj h).symm
    subst this
    refine ⟨by simp [Spec.isCNF, Spec.isClause, exB, exC, Spec.isLit], [], by decide, by simp [exB, exC], ?_⟩
    exact ⟨fun v h => h, fun v h => ⟨v, fun _ _ => rfl, h⟩, by simp⟩

end Examples

end Verif.Graph
