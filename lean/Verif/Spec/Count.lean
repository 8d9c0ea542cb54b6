import Verif.Spec.Formula
import Mathlib.Data.List.Sublists
/-!
# Model counting: specification

The models over a duplicate free list `V` of variables are the subsets of `V` (the true variables).
-/
namespace Verif
variable {α : Type} [DecidableEq α]

/-- the assignment in which exactly the members of `S` are true -/
def asgOf (S : List α) : α → Bool := fun x => decide (x ∈ S)

/-- number of subsets of `V` whose assignment satisfies `p` -/
def count (V : List α) (p : (α → Bool) → Bool) : Nat := V.sublists'.countP fun S => p (asgOf S)

/-- `v` with the value of `x` changed to `b` -/
def setVal (v : α → Bool) (x : α) (b : Bool) : α → Bool := fun y => if y = x then b else v y

/-- `p` depends only on the values of the variables in `V` -/
def DependsOn (p : (α → Bool) → Bool) (V : List α) : Prop := ∀ v w : α → Bool, (∀ x ∈ V, v x = w x) → p v = p w

theorem asgOf_cons (x : α) (S : List α) : asgOf (x :: S) = setVal (asgOf S) x true := by
  funext y; simp only [asgOf, setVal, List.mem_cons]; by_cases e : y = x <;> simp [e]
theorem asgOf_notMem {x : α} {S : List α} (h : x ∉ S) : setVal (asgOf S) x false = asgOf S := by
  funext y; simp only [asgOf, setVal]; by_cases e : y = x <;> simp [e, h]

theorem count_nil (p : (α → Bool) → Bool) : count [] p = if p (fun _ => false) then 1 else 0 := by
  have : asgOf ([] : List α) = fun _ => false := by funext x; simp [asgOf]
  simp [count, List.sublists'_nil, List.countP_cons, this]

theorem count_cons {x : α} {V : List α} (h : x ∉ V) (p : (α → Bool) → Bool) : count (x :: V) p = count V (fun v => p (setVal v x false)) + count V (fun v => p (setVal v x true)) := by
  unfold count
  rw [List.sublists'_cons, List.countP_append, List.countP_map]
  congr 1
  · refine List.countP_congr fun S hS => ?_
    rw [List.mem_sublists'] at hS
    dsimp only
    rw [asgOf_notMem fun hx => h (hS.subset hx)]
  · refine List.countP_congr fun S _ => ?_
    simp only [Function.comp, asgOf_cons]

theorem count_congr {V : List α} {p q : (α → Bool) → Bool} (h : ∀ v, p v = q v) : count V p = count V q := by
  rw [show p = q from funext h]

theorem setVal_comm {v : α → Bool} {x y : α} (h : x ≠ y) (a b : Bool) : setVal (setVal v x a) y b = setVal (setVal v y b) x a := by
  funext z
  simp only [setVal]
  by_cases e1 : z = x
  · have : z ≠ y := fun e2 => h (e1.symm.trans e2)
    rw [if_neg this, if_pos e1, if_pos e1]
  · rw [if_neg e1, if_neg e1]

theorem count_perm {V W : List α} (h : V.Perm W) : V.Nodup → ∀ p, count V p = count W p := by
  induction h with
  | nil => intro _ p; rfl
  | @cons x l₁ l₂ hp ih =>
    intro hn p
    rw [List.nodup_cons] at hn
    rw [count_cons hn.1, count_cons (fun h => hn.1 (hp.mem_iff.2 h)), ih hn.2, ih hn.2]
  | swap x y l =>
    intro hn p
    simp only [List.nodup_cons, List.mem_cons, not_or] at hn
    obtain ⟨⟨h1, h2⟩, h3, h4⟩ := hn
    rw [count_cons (by simp [h1, h2]), count_cons h3, count_cons h3, count_cons (by simp [h3, Ne.symm h1]), count_cons h2, count_cons h2]
    have e : ∀ a b, count l (fun v => p (setVal (setVal v x a) y b)) = count l (fun v => p (setVal (setVal v y b) x a)) := fun a b => by
      simp only [setVal_comm (Ne.symm h1)]
    simp only [e]; omega
  | trans h1 _ ih1 ih2 => intro hn p; rw [ih1 hn, ih2 (h1.nodup_iff.1 hn)]

theorem dependsOn_setVal {p : (α → Bool) → Bool} {V : List α} (h : DependsOn p V) {x : α} (hx : x ∉ V) (v : α → Bool) (b : Bool) : p (setVal v x b) = p v :=
  h _ _ fun y hy => by simp only [setVal]; rw [if_neg]; rintro rfl; exact hx hy

/-- variables that do not matter double the count -/
theorem count_dontCare : ∀ (W : List α) {V : List α} {p : (α → Bool) → Bool}, (W ++ V).Nodup → DependsOn p V → count (W ++ V) p = 2 ^ W.length * count V p
  | [], V, p, _, _ => by simp
  | x :: W, V, p, hn, hp => by
    rw [List.cons_append, List.nodup_cons] at hn
    have hx : x ∉ V := fun h => hn.1 (by simp [h])
    rw [List.cons_append, count_cons hn.1]
    simp only [dependsOn_setVal hp hx]
    rw [count_dontCare W hn.2 hp, List.length_cons, Nat.pow_succ]
    rw [Nat.mul_right_comm, Nat.mul_two]

/-- independent conditions multiply -/
theorem count_prod : ∀ {V W : List α} {p q : (α → Bool) → Bool}, (V ++ W).Nodup → DependsOn p V → DependsOn q W → count (V ++ W) (fun v => p v && q v) = count V p * count W q
  | [], W, p, q, hn, hp, hq => by
    have e : ∀ v, p v = p fun _ => false := fun v => hp _ _ (by simp)
    rw [List.nil_append, count_nil]
    cases h : p fun _ => false
    · rw [count_congr (q := fun _ => false) (fun v => by rw [e, h]; rfl)]; simp [count]
    · rw [count_congr (q := q) (fun v => by rw [e, h]; rfl)]; simp
  | x :: V, W, p, q, hn, hp, hq => by
    rw [List.cons_append, List.nodup_cons] at hn
    have hx : x ∉ W := fun h => hn.1 (by simp [h])
    have hxv : x ∉ V := fun h => hn.1 (by simp [h])
    have hd : ∀ b, DependsOn (fun v => p (setVal v x b)) V := fun b v w h => hp _ _ fun y hy => by
      simp only [setVal]; split
      · rfl
      · exact h y ((List.mem_cons.1 hy).resolve_left ‹_›)
    rw [List.cons_append, count_cons hn.1, count_cons hxv]
    simp only [dependsOn_setVal hq hx]
    rw [count_prod hn.2 (hd false) hq, count_prod hn.2 (hd true) hq, Nat.add_mul]

theorem dependsOn_eval (f : Fm α) {V : List α} (h : ∀ x ∈ f.vars, x ∈ V) : DependsOn (fun v => f.eval v) V := fun _ _ hv => Fm.eval_congr f fun x hx => hv x (h x hx)

example : count [0, 1, 2] (fun v => (Fm.or [.lit ⟨0, true⟩, .lit ⟨1, false⟩] : Fm Nat).eval v) = 6 := by decide +kernel

end Verif
