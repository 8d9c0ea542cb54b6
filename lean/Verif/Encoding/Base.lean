import Verif.Spec.Formula
/-!
# Encoding results

Model of encoding/result.go: an encoder adds clauses and asks for new auxiliary variables.  The variables of an encoding are the variables of
the factory's user and the reserved auxiliary variables, numbered by the counter of the factory (formula/factory.go:955-959).  An encoder is a
function of that counter; it returns the added clauses in order and the new counter.
-/
namespace Verif.Enc
open Verif

/-- variables seen by an encoder -/
inductive EV (α : Type) where
  | usr : α → EV α
  | aux : Nat → EV α
deriving DecidableEq

variable {α : Type}

abbrev Clause (α : Type) := List (Lit (EV α))

/-- literal of the `n`-th auxiliary variable -/
def al (n : Nat) : Lit (EV α) := ⟨.aux n, true⟩

/-- literals of the auxiliary variables `k, …, k+n-1` (a loop calling `NewAuxVar`) -/
def auxs (k n : Nat) : List (Lit (EV α)) := (List.range n).map (fun i => al (k + i))

/-- all clauses hold -/
def Sat (v : EV α → Bool) (cs : List (Clause α)) : Prop := ∀ c ∈ cs, ∃ l ∈ c, l.eval v = true

/-- number of true literals -/
def cnt (v : EV α → Bool) (ls : List (Lit (EV α))) : Nat := ls.countP (fun l => l.eval v)

/-- auxiliary variables handed out between two counter values -/
def New (k k' : Nat) (x : EV α) : Prop := ∃ n, x = .aux n ∧ k ≤ n ∧ n < k'

/-- the literal's variable exists when the counter is `k` -/
def Old (k : Nat) (l : Lit (EV α)) : Prop := ∀ n, l.var = .aux n → n < k

/-- The clauses `cs`, using literals `ls` and auxiliary variables from `k` up to `k'`, encode the condition `C` exactly: an assignment satisfies
`C` if and only if it can be changed on the new auxiliary variables so that all clauses hold. -/
structure Exact (k k' : Nat) (ls : List (Lit (EV α))) (cs : List (Clause α)) (C : (EV α → Bool) → Prop) : Prop where
  le : k ≤ k'
  vars : ∀ c ∈ cs, ∀ l ∈ c, (∃ m ∈ ls, m.var = l.var) ∨ New k k' l.var
  sound : ∀ w, Sat w cs → C w
  complete : ∀ v, C v → ∃ w, (∀ x, ¬New k k' x → w x = v x) ∧ Sat w cs

/-! ### basic facts -/

@[simp] theorem sat_nil (v : EV α → Bool) : Sat v [] := by simp [Sat]
@[simp] theorem sat_append {v : EV α → Bool} {a b : List (Clause α)} : Sat v (a ++ b) ↔ Sat v a ∧ Sat v b := by
  simp only [Sat, List.mem_append]
  exact ⟨fun h => ⟨fun c hc => h c (.inl hc), fun c hc => h c (.inr hc)⟩, fun h c hc => hc.elim (h.1 c) (h.2 c)⟩
@[simp] theorem sat_cons {v : EV α → Bool} {c : Clause α} {b : List (Clause α)} : Sat v (c :: b) ↔ (∃ l ∈ c, l.eval v = true) ∧ Sat v b := by
  simp [Sat]
theorem sat_flatMap {β : Type} {v : EV α → Bool} {xs : List β} {f : β → List (Clause α)} : Sat v (xs.flatMap f) ↔ ∀ x ∈ xs, Sat v (f x) := by
  simp only [Sat, List.mem_flatMap]
  exact ⟨fun h x hx c hc => h c ⟨x, hx, hc⟩, fun h c ⟨x, hx, hc⟩ => h x hx c hc⟩
theorem sat_map {β : Type} {v : EV α → Bool} {xs : List β} {f : β → Clause α} : Sat v (xs.map f) ↔ ∀ x ∈ xs, ∃ l ∈ f x, l.eval v = true := by
  simp [Sat]

theorem eval_congr_var {v w : EV α → Bool} {l : Lit (EV α)} (h : v l.var = w l.var) : l.eval v = l.eval w := by
  simp [Lit.eval, h]
theorem sat_congr {v w : EV α → Bool} {cs : List (Clause α)} (h : ∀ c ∈ cs, ∀ l ∈ c, v l.var = w l.var) : Sat v cs ↔ Sat w cs := by
  constructor
  · intro hs c hc
    obtain ⟨l, hl, e⟩ := hs c hc
    exact ⟨l, hl, by rw [← eval_congr_var (h c hc l hl)]; exact e⟩
  · intro hs c hc
    obtain ⟨l, hl, e⟩ := hs c hc
    exact ⟨l, hl, by rw [eval_congr_var (h c hc l hl)]; exact e⟩
theorem cnt_congr {v w : EV α → Bool} {ls : List (Lit (EV α))} (h : ∀ l ∈ ls, v l.var = w l.var) : cnt v ls = cnt w ls := by
  unfold cnt
  exact List.countP_congr fun l hl => by rw [eval_congr_var (h l hl)]

@[simp] theorem cnt_nil (v : EV α → Bool) : cnt v [] = 0 := rfl
@[simp] theorem cnt_append (v : EV α → Bool) (a b : List (Lit (EV α))) : cnt v (a ++ b) = cnt v a + cnt v b := List.countP_append
theorem cnt_cons (v : EV α → Bool) (a : Lit (EV α)) (b : List (Lit (EV α))) : cnt v (a :: b) = (if a.eval v then 1 else 0) + cnt v b := by
  unfold cnt; rw [List.countP_cons]; split <;> omega
theorem cnt_le (v : EV α → Bool) (ls : List (Lit (EV α))) : cnt v ls ≤ ls.length := List.countP_le_length
theorem cnt_perm {v : EV α → Bool} {a b : List (Lit (EV α))} (h : a.Perm b) : cnt v a = cnt v b := h.countP_eq _
@[simp] theorem cnt_reverse (v : EV α → Bool) (a : List (Lit (EV α))) : cnt v a.reverse = cnt v a := by simp [cnt]
theorem cnt_pos {v : EV α → Bool} {ls : List (Lit (EV α))} : 0 < cnt v ls ↔ ∃ l ∈ ls, l.eval v = true := by
  simp [cnt, List.countP_pos_iff]
theorem cnt_zero {v : EV α → Bool} {ls : List (Lit (EV α))} : cnt v ls = 0 ↔ ∀ l ∈ ls, l.eval v = false := by
  unfold cnt; rw [List.countP_eq_zero]; simp
theorem cnt_neg (v : EV α → Bool) (ls : List (Lit (EV α))) : cnt v (ls.map Lit.neg) + cnt v ls = ls.length := by
  induction ls with
  | nil => rfl
  | cons l ls ih =>
    rw [List.map_cons, cnt_cons, cnt_cons, Lit.eval_neg, List.length_cons]
    cases l.eval v <;> simp <;> omega

@[simp] theorem al_var (n : Nat) : (al n : Lit (EV α)).var = .aux n := rfl
@[simp] theorem al_eval (n : Nat) (v : EV α → Bool) : (al n : Lit (EV α)).eval v = v (.aux n) := by simp [al, Lit.eval]
@[simp] theorem neg_var {β : Type} (l : Lit β) : l.neg.var = l.var := rfl
@[simp] theorem auxs_length (k n : Nat) : (auxs k n : List (Lit (EV α))).length = n := by simp [auxs]
theorem mem_auxs {k n : Nat} {l : Lit (EV α)} : l ∈ auxs k n ↔ ∃ i, i < n ∧ l = al (k + i) := by
  simp only [auxs, List.mem_map, List.mem_range]
  exact exists_congr fun i => and_congr_right fun _ => eq_comm
theorem auxs_getElem {k n i : Nat} (h : i < (auxs k n : List (Lit (EV α))).length) : (auxs k n : List (Lit (EV α)))[i] = al (k + i) := by simp [auxs]

theorem New.mono {k k' j j' : Nat} {x : EV α} (h : New k k' x) (h1 : j ≤ k) (h2 : k' ≤ j') : New j j' x := by
  obtain ⟨n, e, a, b⟩ := h; exact ⟨n, e, Nat.le_trans h1 a, Nat.lt_of_lt_of_le b h2⟩
theorem Old.mono {k k' : Nat} {l : Lit (EV α)} (h : Old k l) (hk : k ≤ k') : Old k' l := fun n e => Nat.lt_of_lt_of_le (h n e) hk
theorem Old.neg {k : Nat} {l : Lit (EV α)} (h : Old k l) : Old k l.neg := h
theorem Old.not_new {k k' j : Nat} {l : Lit (EV α)} (h : Old k l) (hk : k ≤ j) : ¬New j k' l.var := by
  rintro ⟨n, e, a, _⟩; have := h n e; omega
theorem old_al {n k : Nat} (h : n < k) : Old k (al n : Lit (EV α)) := by intro m e; simp at e; omega
theorem old_usr {k : Nat} {a : α} {p : Bool} : Old k ⟨.usr a, p⟩ := by intro m e; simp at e
theorem old_auxs {k n k' : Nat} (h : k + n ≤ k') : ∀ l ∈ (auxs k n : List (Lit (EV α))), Old k' l := by
  intro l hl; obtain ⟨i, hi, rfl⟩ := mem_auxs.1 hl; exact old_al (by omega)
theorem new_al {n k k' : Nat} : New k k' (al n : Lit (EV α)).var ↔ k ≤ n ∧ n < k' := by
  simp only [New, al_var, EV.aux.injEq]
  exact ⟨fun ⟨m, e, a, b⟩ => by subst e; exact ⟨a, b⟩, fun ⟨a, b⟩ => ⟨n, rfl, a, b⟩⟩

/-- values of the auxiliary variables from `k` on, up to `k'` -/
def setNew (v : EV α → Bool) (k k' : Nat) (g : Nat → Bool) : EV α → Bool
  | .usr a => v (.usr a)
  | .aux n => if k ≤ n ∧ n < k' then g (n - k) else v (.aux n)
theorem setNew_off {v : EV α → Bool} {k k' : Nat} {g : Nat → Bool} {x : EV α} (h : ¬New k k' x) : setNew v k k' g x = v x := by
  cases x with
  | usr a => rfl
  | aux n =>
    simp only [setNew]
    rw [if_neg]
    exact fun h' => h ⟨n, rfl, h'⟩
theorem setNew_on {v : EV α → Bool} {k k' : Nat} {g : Nat → Bool} {i : Nat} (h : k + i < k') : setNew v k k' g (.aux (k + i)) = g i := by
  simp only [setNew]
  rw [if_pos ⟨by omega, h⟩]
  congr 1; omega
theorem setNew_old {v : EV α → Bool} {k k' : Nat} {g : Nat → Bool} {l : Lit (EV α)} (h : Old k l) : l.eval (setNew v k k' g) = l.eval v :=
  eval_congr_var (setNew_off (h.not_new (Nat.le_refl _)))

end Verif.Enc
