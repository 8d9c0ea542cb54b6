/-
Specification: decision trees over levels, ordered and reduced. Nothing here refers to the model of the Go code.
-/
namespace Verif.Bdd

/-- decision trees; `node v l h` asks level `v` and continues with `l` if it is false, with `h` if it is true -/
inductive T | leaf (b : Bool) | node (v : Nat) (l h : T)
deriving DecidableEq, Repr

/-- the Boolean function of a tree -/
def T.eval (ρ : Nat → Bool) : T → Bool
  | .leaf b => b
  | .node v l h => if ρ v then h.eval ρ else l.eval ρ

/-- ordered (levels from `m` on, increasing, below `n`) and reduced (no redundant question) -/
def Ord (n : Nat) : Nat → T → Prop
  | _, .leaf _ => True
  | m, .node v l h => m ≤ v ∧ v < n ∧ l ≠ h ∧ Ord n (v + 1) l ∧ Ord n (v + 1) h

theorem Ord.mono {n m m' : Nat} {t : T} (h : Ord n m t) (hm : m' ≤ m) : Ord n m' t := by
  cases t with
  | leaf b => trivial
  | node v l h2 => exact ⟨Nat.le_trans hm h.1, h.2⟩

theorem Ord.agree {n : Nat} : ∀ {t : T} {m : Nat} {ρ σ : Nat → Bool}, Ord n m t →
    (∀ v, m ≤ v → v < n → ρ v = σ v) → t.eval ρ = t.eval σ
  | .leaf b, _, _, _, _, _ => rfl
  | .node v l h, m, ρ, σ, ho, hh => by
    obtain ⟨h1, h2, _, h4, h5⟩ := ho
    simp only [T.eval]
    rw [hh v h1 h2, h4.agree (fun w hw hn => hh w (by omega) hn), h5.agree (fun w hw hn => hh w (by omega) hn)]

/-- change the value at one level -/
def setv (ρ : Nat → Bool) (v : Nat) (b : Bool) : Nat → Bool := fun w => if w = v then b else ρ w

theorem Ord.setv_lt {n m : Nat} {t : T} (h : Ord n m t) {v : Nat} (hv : v < m) (ρ : Nat → Bool) (b : Bool) :
    t.eval (setv ρ v b) = t.eval ρ := by
  refine h.agree fun w hw _ => ?_
  have : w ≠ v := by omega
  simp [setv, this]

theorem eval_low {n v : Nat} {l h : T} (hl : Ord n (v + 1) l) (ρ : Nat → Bool) :
    (T.node v l h).eval (setv ρ v false) = l.eval ρ := by
  simp only [T.eval]
  rw [if_neg (by simp [setv])]
  exact hl.setv_lt (by omega) ρ false

theorem eval_high {n v : Nat} {l h : T} (hh : Ord n (v + 1) h) (ρ : Nat → Bool) :
    (T.node v l h).eval (setv ρ v true) = h.eval ρ := by
  simp only [T.eval]
  rw [if_pos (by simp [setv])]
  exact hh.setv_lt (by omega) ρ true

theorem Ord.const {n : Nat} {b : Bool} : ∀ {t : T} {m : Nat}, Ord n m t → (∀ ρ, t.eval ρ = b) → t = .leaf b
  | .leaf c, _, _, h => by rw [show c = b from h (fun _ => false)]
  | .node v l h, m, ho, he => by
    obtain ⟨_, _, h3, h4, h5⟩ := ho
    have e1 : l = .leaf b := h4.const fun ρ => by rw [← eval_low (h := h) h4 ρ]; exact he _
    have e2 : h = .leaf b := h5.const fun ρ => by rw [← eval_high (l := l) h5 ρ]; exact he _
    exact absurd (e1.trans e2.symm) h3

/-- ordered reduced trees of the same function are equal -/
theorem Ord.canon {n : Nat} (s t : T) {m m' : Nat} (hs : Ord n m s) (ht : Ord n m' t)
    (he : ∀ ρ, s.eval ρ = t.eval ρ) : s = t := by
  match s, t, hs, ht, he with
  | .leaf b, t, _, ht, he => exact (ht.const fun ρ => (he ρ).symm).symm
  | .node v l h, .leaf b, hs, _, he => exact hs.const he
  | .node v l h, .node w l' h', hs, ht, he =>
    obtain ⟨s1, s2, s3, s4, s5⟩ := hs
    obtain ⟨t1, t2, t3, t4, t5⟩ := ht
    rcases Nat.lt_trichotomy v w with hv | hv | hv
    · have ht' : Ord n w (.node w l' h') := ⟨Nat.le_refl _, t2, t3, t4, t5⟩
      have e1 : ∀ ρ, l.eval ρ = (T.node w l' h').eval ρ := fun ρ => by
        rw [← eval_low (h := h) s4 ρ, he, ht'.setv_lt hv]
      have e2 : ∀ ρ, h.eval ρ = (T.node w l' h').eval ρ := fun ρ => by
        rw [← eval_high (l := l) s5 ρ, he, ht'.setv_lt hv]
      exact absurd (Ord.canon l h s4 s5 fun ρ => (e1 ρ).trans (e2 ρ).symm) s3
    · subst hv
      have e1 : l = l' := Ord.canon l l' s4 t4 fun ρ => by
        rw [← eval_low (h := h) s4 ρ, he, eval_low t4]
      have e2 : h = h' := Ord.canon h h' s5 t5 fun ρ => by
        rw [← eval_high (l := l) s5 ρ, he, eval_high t5]
      rw [e1, e2]
    · have hs' : Ord n v (.node v l h) := ⟨Nat.le_refl _, s2, s3, s4, s5⟩
      have e1 : ∀ ρ, l'.eval ρ = (T.node v l h).eval ρ := fun ρ => by
        rw [← eval_low (h := h') t4 ρ, ← he, hs'.setv_lt hv]
      have e2 : ∀ ρ, h'.eval ρ = (T.node v l h).eval ρ := fun ρ => by
        rw [← eval_high (l := l') t5 ρ, ← he, hs'.setv_lt hv]
      exact absurd (Ord.canon l' h' t4 t5 fun ρ => (e1 ρ).trans (e2 ρ).symm) t3
termination_by sizeOf s + sizeOf t

/-- a function that does not depend on the levels below `m'` has no node below `m'` -/
theorem Ord.of_indep {n m m' : Nat} {t : T} (ho : Ord n m t)
    (hi : ∀ ρ σ : Nat → Bool, (∀ v, m' ≤ v → ρ v = σ v) → t.eval ρ = t.eval σ) : Ord n m' t := by
  cases t with
  | leaf b => trivial
  | node v l h =>
    obtain ⟨h1, h2, h3, h4, h5⟩ := ho
    by_cases hv : m' ≤ v
    · exact ⟨hv, h2, h3, h4, h5⟩
    · refine absurd (Ord.canon l h h4 h5 fun ρ => ?_) h3
      rw [← eval_low (h := h) h4 ρ, ← eval_high (l := l) h5 ρ]
      refine hi _ _ fun w hw => ?_
      have : w ≠ v := by omega
      simp [setv, this]

end Verif.Bdd
