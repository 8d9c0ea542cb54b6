import Verif.Bdd.Read
import Verif.Bdd.ReorderDone
import Mathlib.Data.List.Dedup
/-
Lemmas on the functions that read a BDD.
-/
namespace Verif.Bdd
open Verif Verif.Tree
variable {α : Type} [DecidableEq α]

/-! ### Levels of trees -/

/-- the levels a tree asks for -/
def T.levels : T → List Nat
  | .leaf _ => []
  | .node v l h => v :: (l.levels ++ h.levels)

theorem Ord.levels {n : Nat} : ∀ {t : T} {m : Nat}, Ord n m t → ∀ l ∈ t.levels, m ≤ l ∧ l < n
  | .leaf _, _, _, l, hl => by simp [T.levels] at hl
  | .node v a b, m, ho, l, hl => by
    obtain ⟨h1, h2, _, h4, h5⟩ := ho
    simp only [T.levels, List.mem_cons, List.mem_append] at hl
    rcases hl with rfl | hl | hl
    · exact ⟨h1, h2⟩
    · have := h4.levels l hl; omega
    · have := h5.levels l hl; omega

/-- a reduced tree depends on each level it asks for -/
theorem Ord.dep {n : Nat} : ∀ {t : T} {m : Nat}, Ord n m t → ∀ l ∈ t.levels, ∃ ρ, t.eval (setv ρ l false) ≠ t.eval (setv ρ l true)
  | .leaf _, _, _, l, hl => by simp [T.levels] at hl
  | .node v a b, m, ho, l, hl => by
    obtain ⟨h1, h2, h3, h4, h5⟩ := ho
    simp only [T.levels, List.mem_cons, List.mem_append] at hl
    rcases hl with rfl | hl | hl
    · obtain ⟨ρ, hρ⟩ : ∃ ρ, a.eval ρ ≠ b.eval ρ := by
        by_contra hc
        exact h3 (Ord.canon a b h4 h5 fun ρ => by by_contra h; exact hc ⟨ρ, h⟩)
      exact ⟨ρ, by rw [eval_low h4, eval_high h5]; exact hρ⟩
    · obtain ⟨ρ, hρ⟩ := h4.dep l hl
      have hv := (h4.levels l hl).1
      refine ⟨setv ρ v false, fun e => hρ ?_⟩
      have hsw : ∀ c, setv (setv ρ v false) l c = setv (setv ρ l c) v false := fun c => by
        funext w; simp only [setv]; split <;> split <;> first | rfl | omega
      rw [hsw, hsw, eval_low h4, eval_low h4] at e
      exact e
    · obtain ⟨ρ, hρ⟩ := h5.dep l hl
      have hv := (h5.levels l hl).1
      refine ⟨setv ρ v true, fun e => hρ ?_⟩
      have hsw : ∀ c, setv (setv ρ v true) l c = setv (setv ρ l c) v true := fun c => by
        funext w; simp only [setv]; split <;> split <;> first | rfl | omega
      rw [hsw, hsw, eval_high h5, eval_high h5] at e
      exact e

/-- a tree does not depend on other levels -/
theorem T.indep : ∀ {t : T} {l : Nat}, l ∉ t.levels → ∀ ρ c, t.eval (setv ρ l c) = t.eval ρ
  | .leaf _, _, _, _, _ => rfl
  | .node v a b, l, hl, ρ, c => by
    simp only [T.levels, List.mem_cons, List.mem_append, not_or] at hl
    simp only [T.eval, T.indep hl.2.1, T.indep hl.2.2]
    rw [show setv ρ l c v = ρ v by simp [setv, Ne.symm hl.1]]

/-! ### Paths -/

theorem free_apply {l2v : Nat → Nat} {n a b : Nat} (hinj : ∀ x y, x < n → y < n → l2v x = l2v y → x = y) (hb : b ≤ n)
    (p : Nat → Option Bool) {l : Nat} (hl : l < n) :
    free l2v a b p (l2v l) = if a ≤ l ∧ l < b then none else p (l2v l) := by
  unfold free
  have key : ∀ (L : List Nat) (p : Nat → Option Bool), (∀ x ∈ L, x < n) →
      L.foldl (fun p l => upd p (l2v l) none) p (l2v l) = if l ∈ L then none else p (l2v l) := by
    intro L
    induction L with
    | nil => intro p _; simp
    | cons x L ih =>
      intro p hL
      rw [List.foldl_cons, ih _ fun y hy => hL y (by simp [hy])]
      by_cases h : l ∈ L
      · simp [h]
      · by_cases hx : l = x
        · subst hx; simp [h, upd]
        · have : l2v l ≠ l2v x := fun e => hx (hinj l x hl (hL x (by simp)) e)
          simp [h, hx, upd, this]
  rw [key _ p fun x hx => by
    have := List.mem_range'_1.1 (List.mem_reverse.1 hx); omega]
  have : (l ∈ (List.range' a (b - a)).reverse) ↔ a ≤ l ∧ l < b := by
    rw [List.mem_reverse, List.mem_range'_1]; omega
  simp only [this]

/-- a value of a path fits to the value of the variable -/
def fits (x : Option Bool) (b : Bool) : Bool := match x with | none => true | some c => c == b

/-- a path fits to the values of the variables from level `d` on -/
def cov (l2v : Nat → Nat) (n d : Nat) (ρ : Nat → Bool) (q : Nat → Option Bool) : Bool :=
  (List.range' d (n - d)).all fun l => fits (q (l2v l)) (ρ (l2v l))

theorem cov_iff {l2v : Nat → Nat} {n d : Nat} {ρ : Nat → Bool} {q : Nat → Option Bool} :
    cov l2v n d ρ q = true ↔ ∀ l, d ≤ l → l < n → fits (q (l2v l)) (ρ (l2v l)) = true := by
  unfold cov
  rw [List.all_eq_true]
  constructor
  · intro h l h1 h2
    exact h l (List.mem_range'_1.2 (by omega))
  · intro h l hl
    have := List.mem_range'_1.1 hl
    exact h l this.1 (by omega)

theorem leafIx_rep {nd : Nat → Node} {b : Bool} {i : Nat} (h : Rep nd i (.leaf b)) : i = leafIx b := by
  rw [h.leaf_idx]; cases b <;> rfl

theorem rep_leafIx {nd : Nat → Node} {b : Bool} {t : T} (h : Rep nd (leafIx b) t) : t = .leaf b := by
  cases b
  · exact h.fun .ff
  · exact h.fun .tt

/-- what the search for paths from a node gives -/
structure POk (nd : Nat → Node) (l2v : Nat → Nat) (n : Nat) (goal : Bool) (L : Nat) (t : T) (p : Nat → Option Bool)
    (x : (Nat → Option Bool) × List (Nat → Option Bool)) : Prop where
  prof : ∀ l, l < L → l < n → x.1 (l2v l) = p (l2v l)
  pre : ∀ q ∈ x.2, ∀ l, l < L → l < n → q (l2v l) = p (l2v l)
  cnt : ∀ ρ : Nat → Bool, x.2.countP (cov l2v n L ρ) = if (t.eval fun l => ρ (l2v l)) = goal then 1 else 0
  lev : ∀ q ∈ x.2, ∀ l, L ≤ l → l < n → q (l2v l) ≠ none → l ∈ t.levels

theorem pathsRec_spec {nd : Nat → Node} {l2v : Nat → Nat} {n : Nat} {goal : Bool}
    (hinj : ∀ x y, x < n → y < n → l2v x = l2v y → x = y) (h0 : (nd 0).lvl = n) (h1 : (nd 1).lvl = n) :
    ∀ {f r d : Nat} {t : T} (p : Nat → Option Bool), Rep nd r t → Ord n d t → d ≤ n → n - d < f →
      ∃ x, pathsRec nd l2v goal f r p = some x ∧ POk nd l2v n goal (nd r).lvl t p x
  | 0, _, _, _, _, _, _, _, hf => by omega
  | f + 1, r, d, t, p, hr, ho, hd, hf => by
    have hlv : ∀ b, (nd (leafIx b)).lvl = n := fun b => by cases b <;> assumption
    unfold pathsRec
    by_cases e1 : r = leafIx goal
    · rw [if_pos e1]
      subst e1
      have ht := rep_leafIx hr
      subst ht
      refine ⟨_, rfl, fun _ _ _ => rfl, ?_, fun ρ => ?_, fun q hq l hl hl' => ?_⟩
      · simp
      · rw [hlv]
        simp [T.eval, cov]
      · rw [hlv] at hl; omega
    rw [if_neg e1]
    by_cases e2 : r = leafIx (!goal)
    · rw [if_pos e2]
      subst e2
      have ht := rep_leafIx hr
      subst ht
      refine ⟨_, rfl, fun _ _ _ => rfl, by simp, fun ρ => ?_, by simp⟩
      simp [T.eval]
    rw [if_neg e2]
    cases hr with
    | ff => cases goal <;> simp_all [leafIx]
    | tt => cases goal <;> simp_all [leafIx]
    | @node _ lo tl th g1 g2 g3 g4 =>
      obtain ⟨o1, o2, o3, o4, o5⟩ := ho
      rw [g2, Option.bind_some]
      generalize hv : (nd r).lvl = v at *
      -- the levels below a child
      have hchild : ∀ {c : Nat} {tc : T}, Rep nd c tc → Ord n (v + 1) tc → v + 1 ≤ (nd c).lvl ∧ (nd c).lvl ≤ n := by
        intro c tc hc hoc
        cases hc with
        | ff => rw [h0]; omega
        | tt => rw [h1]; omega
        | node _ _ _ _ => exact ⟨hoc.1, Nat.le_of_lt hoc.2.1⟩
      -- one child
      have side : ∀ {c : Nat} {tc : T} (b : Bool) (p : Nat → Option Bool), Rep nd c tc → Ord n (v + 1) tc →
          ∃ x, (if c = leafIx (!goal) then some (p, []) else pathsRec nd l2v goal f c (free l2v (v + 1) (nd c).lvl (upd p (l2v v) (some b)))) = some x ∧
            (∀ l, l < v → l < n → x.1 (l2v l) = p (l2v l)) ∧ (∀ q ∈ x.2, ∀ l, l < v → l < n → q (l2v l) = p (l2v l)) ∧
            (∀ ρ : Nat → Bool, x.2.countP (cov l2v n v ρ) = if ρ (l2v v) = b ∧ (tc.eval fun l => ρ (l2v l)) = goal then 1 else 0) ∧
            ∀ q ∈ x.2, ∀ l, v < l → l < n → q (l2v l) ≠ none → l ∈ tc.levels := by
        intro c tc b p hc hoc
        obtain ⟨k1, k2⟩ := hchild hc hoc
        by_cases ec : c = leafIx (!goal)
        · rw [if_pos ec]
          subst ec
          have := rep_leafIx hc
          subst this
          refine ⟨_, rfl, fun _ _ _ => rfl, by simp, fun ρ => ?_, by simp⟩
          simp [T.eval]
        · rw [if_neg ec]
          obtain ⟨x, x1, x2⟩ := pathsRec_spec (goal := goal) hinj h0 h1 (f := f) (free l2v (v + 1) (nd c).lvl (upd p (l2v v) (some b))) hc hoc (by omega) (by omega)
          have hp : ∀ l, l < (nd c).lvl → l < n → free l2v (v + 1) (nd c).lvl (upd p (l2v v) (some b)) (l2v l) =
              if v < l then none else if l = v then some b else p (l2v l) := by
            intro l hl hl'
            rw [free_apply hinj k2 _ hl']
            by_cases hvl : v < l
            · rw [if_pos (by omega), if_pos hvl]
            · rw [if_neg (by omega), if_neg hvl]
              by_cases hlv' : l = v
              · subst hlv'; simp [upd]
              · have : l2v l ≠ l2v v := fun e => hlv' (hinj l v hl' o2 e)
                simp [upd, this, hlv']
          refine ⟨x, x1, fun l hl hl' => ?_, fun q hq l hl hl' => ?_, fun ρ => ?_, fun q hq l hl hl' hne => ?_⟩
          · rw [x2.prof l (by omega) hl', hp l (by omega) hl', if_neg (by omega), if_neg (by omega)]
          · rw [x2.pre q hq l (by omega) hl', hp l (by omega) hl', if_neg (by omega), if_neg (by omega)]
          · have hq : ∀ q ∈ x.2, cov l2v n v ρ q = (decide (ρ (l2v v) = b) && cov l2v n (nd c).lvl ρ q) := by
              intro q hq
              rw [Bool.eq_iff_iff, Bool.and_eq_true, cov_iff, cov_iff, decide_eq_true_eq]
              constructor
              · intro h
                refine ⟨?_, fun l a b => h l (by omega) b⟩
                have := h v (Nat.le_refl _) o2
                rw [x2.pre q hq v (by omega) o2, hp v (by omega) o2, if_neg (by omega), if_pos rfl] at this
                exact (beq_iff_eq.1 this).symm
              · rintro ⟨ha, h⟩ l hl hl'
                by_cases hlc : (nd c).lvl ≤ l
                · exact h l hlc hl'
                · rw [x2.pre q hq l (by omega) hl', hp l (by omega) hl']
                  by_cases hlv' : v < l
                  · rw [if_pos hlv']; rfl
                  · have : l = v := by omega
                    subst this
                    rw [if_neg hlv', if_pos rfl, ha]
                    simp [fits]
            rw [List.countP_congr (fun q h => by rw [hq q h])]
            by_cases hb : ρ (l2v v) = b
            · simp only [hb, decide_true, Bool.true_and, true_and]
              exact x2.cnt ρ
            · simp [hb]
          · by_cases hlc : (nd c).lvl ≤ l
            · exact x2.lev q hq l hlc hl' hne
            · rw [x2.pre q hq l (by omega) hl', hp l (by omega) hl', if_pos hl] at hne
              exact absurd rfl hne
      obtain ⟨x, x1, x2, x3, x4, x5⟩ := side false p g3 o4
      obtain ⟨y, y1, y2, y3, y4, y5⟩ := side true x.1 g4 o5
      refine ⟨(y.1, x.2 ++ y.2), ?_, fun l hl hl' => ?_, fun q hq l hl hl' => ?_, fun ρ => ?_, fun q hq l hl hl' hne => ?_⟩
      · rw [x1, Option.bind_some, y1]; rfl
      · exact (y2 l hl hl').trans (x2 l hl hl')
      · rcases List.mem_append.1 hq with hq | hq
        · exact x3 q hq l hl hl'
        · exact (y3 q hq l hl hl').trans (x2 l hl hl')
      · rw [List.countP_append, x4, y4]
        simp only [T.eval]
        by_cases hb : ρ (l2v v) = true
        · simp [hb]
        · rw [Bool.not_eq_true] at hb
          simp [hb]
      · simp only [T.levels, List.mem_cons, List.mem_append]
        by_cases e : l = v
        · exact .inl e
        · rcases List.mem_append.1 hq with hq | hq
          · exact .inr (.inl (x5 q hq l (by omega) hl' hne))
          · exact .inr (.inr (y5 q hq l (by omega) hl' hne))

theorem OInv.inj {P : Par} {o : KO} (h : OInv P o) : ∀ x y, x < o.k.n → y < o.k.n → o.l2v x = o.l2v y → x = y :=
  fun x y hx hy e => by rw [← (h.tabs.vl x hx).2, ← (h.tabs.vl y hy).2, e]

/-- a path covers values of the variables -/
def covers (n : Nat) (ρ : Nat → Bool) (q : Nat → Option Bool) : Bool := (List.range n).all fun x => fits (q x) (ρ x)

theorem covers_cov {P : Par} {o : KO} (h : OInv P o) (ρ : Nat → Bool) (q : Nat → Option Bool) :
    covers o.k.n ρ q = cov o.l2v o.k.n 0 ρ q := by
  rw [Bool.eq_iff_iff, cov_iff]
  unfold covers
  rw [List.all_eq_true]
  constructor
  · intro hq l _ hl
    exact hq _ (List.mem_range.2 (h.tabs.vl l hl).1)
  · intro hq x hx
    have hx := List.mem_range.1 hx
    have := hq (o.v2l x) (Nat.zero_le _) (h.tabs.lv x hx).1
    rwa [(h.tabs.lv x hx).2] at this

/-- the paths of a BDD: exactly one path covers an assignment with the value `goal`, no path covers another one -/
theorem paths_spec {P : Par} {o : KO} (h : OInv P o) (goal : Bool) {r : Nat} {t : T} (hr : Rep o.k.nd r t) :
    ∃ ps, paths o goal r = some ps ∧
      (∀ ρ, ps.countP (covers o.k.n ρ) = if (t.eval fun l => ρ (o.l2v l)) = goal then 1 else 0) ∧
      ∀ q ∈ ps, ∀ x, x < o.k.n → q x ≠ none → o.v2l x ∈ t.levels := by
  have ho := h.inv.ord hr
  have hle : (o.k.nd r).lvl ≤ o.k.n := by
    cases hr with
    | ff => rw [h.lv.1]
    | tt => rw [h.lv.2]
    | node _ _ _ _ => exact Nat.le_of_lt ho.2.1
  obtain ⟨x, x1, x2⟩ := pathsRec_spec (goal := goal) (f := o.k.n + 1) h.inj h.lv.1 h.lv.2
    (free o.l2v 0 (o.k.nd r).lvl fun _ => some false) hr ho (Nat.zero_le _) (by omega)
  have hpre : ∀ q ∈ x.2, ∀ l, l < (o.k.nd r).lvl → q (o.l2v l) = none := fun q hq l hl => by
    rw [x2.pre q hq l hl (by omega), free_apply h.inj hle _ (by omega : l < o.k.n), if_pos ⟨Nat.zero_le _, hl⟩]
  refine ⟨x.2, by unfold paths; rw [x1]; rfl, fun ρ => ?_, fun q hq y hy hne => ?_⟩
  · rw [← x2.cnt ρ]
    refine List.countP_congr fun q hq => ?_
    rw [covers_cov h, cov_iff, cov_iff]
    constructor
    · exact fun hc l _ hl => hc l (Nat.zero_le _) hl
    · intro hc l _ hl
      by_cases e : (o.k.nd r).lvl ≤ l
      · exact hc l e hl
      · rw [hpre q hq l (by omega)]; rfl
  · obtain ⟨y1, y2⟩ := h.tabs.lv y hy
    by_cases e : (o.k.nd r).lvl ≤ o.v2l y
    · exact x2.lev q hq _ e y1 (by rw [y2]; exact hne)
    · have := hpre q hq (o.v2l y) (by omega)
      rw [y2] at this
      exact absurd this hne

end Verif.Bdd
