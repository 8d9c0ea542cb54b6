import Verif.Bdd.Reorder
import Verif.Bdd.Inv
import Mathlib.Data.List.Basic
/-
Invariant of the node table during a reordering, and the specification of the swap of two adjacent variables.
The functions `D i` of the nodes are ghost state: they never change for a node in use.
-/
namespace Verif.Bdd

/-- Boolean functions of assignments of the variables -/
abbrev Fn := (Nat → Bool) → Bool

/-- `g` does not depend on `w` -/
def Ind (g : Fn) (w : Nat) : Prop := ∀ ρ b, g (setv ρ w b) = g ρ

/-- contents of the nodes without the reference counts -/
abbrev Co := Nat → Nat × Option Nat × Nat

def cores (nd : Nat → Node) : Co := fun i => (nd i).core
def refs (nd : Nat → Node) : Nat → Nat := fun i => (nd i).ref

/-- the children of a node -/
def kids (c : Co) (i : Nat) : List Nat :=
  match (c i).2.1 with
  | none => []
  | some lo => [lo, (c i).2.2]

theorem kids_some {c : Co} {i lo : Nat} (h : (c i).2.1 = some lo) : kids c i = [lo, (c i).2.2] := by simp [kids, h]

/-- pointers to `i` from the nodes of `L` -/
def cnt (c : Co) (L : List Nat) (i : Nat) : Nat := (L.flatMap (kids c)).count i

theorem setv_same {ρ : Nat → Bool} {w : Nat} : setv ρ w (ρ w) = ρ := by
  funext x
  unfold setv
  split
  · next h => rw [h]
  · rfl

theorem setv_self (ρ : Nat → Bool) (w : Nat) (b : Bool) : setv ρ w b w = b := by simp [setv]
theorem setv_ne (ρ : Nat → Bool) {w x : Nat} (b : Bool) (h : x ≠ w) : setv ρ w b x = ρ x := by simp [setv, h]

theorem Ind.ite {g f0 f1 : Fn} {v w : Nat} (hg : ∀ ρ, g ρ = if ρ v then f1 ρ else f0 ρ) (hw : w ≠ v) (h0 : Ind f0 w)
    (h1 : Ind f1 w) : Ind g w := fun ρ b => by
  rw [hg, hg, h0, h1, setv_ne _ _ (Ne.symm hw)]

theorem ite_low {g f0 f1 : Fn} {v : Nat} (hg : ∀ ρ, g ρ = if ρ v then f1 ρ else f0 ρ) (h0 : Ind f0 v) (ρ : Nat → Bool) :
    f0 ρ = g (setv ρ v false) := by
  rw [hg, setv_self, h0]; simp

theorem ite_high {g f0 f1 : Fn} {v : Nat} (hg : ∀ ρ, g ρ = if ρ v then f1 ρ else f0 ρ) (h1 : Ind f1 v) (ρ : Nat → Bool) :
    f1 ρ = g (setv ρ v true) := by
  rw [hg, setv_self, h1]; simp

theorem dep_ite {g f0 f1 : Fn} {v : Nat} (hg : ∀ ρ, g ρ = if ρ v then f1 ρ else f0 ρ) (h0 : Ind f0 v) (h1 : Ind f1 v)
    (hne : f0 ≠ f1) : ¬Ind g v := fun h => hne (by
  funext ρ
  rw [ite_low hg h0 ρ, ite_high hg h1 ρ, h, h])

/-- the nodes `L` in use: `o` is the order of the variables; the nodes of `T` ask `a` and may have children that ask `b`,
the variable before `a` in the order `o` -/
structure Cr (n size : Nat) (o : Nat → Nat) (a b : Nat) (T : List Nat) (D : Nat → Fn) (L : List Nat) (c : Co) : Prop where
  sz : 2 ≤ size
  lnd : L.Nodup
  rng : ∀ i ∈ L, 2 ≤ i ∧ i < size
  d0 : D 0 = fun _ => false
  d1 : D 1 = fun _ => true
  l0 : ∀ i, i < 2 → (c i).1 = n
  node : ∀ i ∈ L, ∃ lo, (c i).2.1 = some lo ∧ (c i).1 < n ∧ (lo < 2 ∨ lo ∈ L) ∧ ((c i).2.2 < 2 ∨ (c i).2.2 ∈ L) ∧
    ∀ ρ, D i ρ = if ρ (c i).1 then D (c i).2.2 ρ else D lo ρ
  inj : ∀ i j, (i < 2 ∨ i ∈ L) → (j < 2 ∨ j ∈ L) → D i = D j → i = j
  ind : ∀ i ∈ L, ∀ w, w < n → o w < o (c i).1 → (i ∈ T → w ≠ b) → Ind (D i) w
  dep : ∀ i ∈ L, ¬Ind (D i) (c i).1
  depT : ∀ i ∈ T, ¬Ind (D i) b
  ord : ∀ i ∈ L, i ∉ T → ∀ d ∈ kids c i, 2 ≤ d → o (c i).1 < o (c d).1
  bT : ∀ i ∈ L, (c i).1 = b → ∀ d ∈ kids c i, d ∉ T
  tT : ∀ i ∈ T, i ∈ L ∧ (c i).1 = a ∧ ∀ d ∈ kids c i, 2 ≤ d → o a < o (c d).1 ∨
    ((c d).1 = b ∧ ∀ e ∈ kids c d, 2 ≤ e → o a < o (c e).1)
  tnd : T.Nodup
  oinj : ∀ v w, v < n → w < n → o v = o w → v = w
  out : ∀ i, size ≤ i → (c i).2.1 = none

/-- the chains and the free list -/
structure Chn (Q : RPar) (size tsz : Nat) (T L : List Nat) (ch : Nat → Nat → List Nat) (free : List Nat) (c : Co) : Prop where
  mem : ∀ v p i, i ∈ ch v p → i ∈ L ∧ i ∉ T ∧ (c i).1 = v ∧ ∃ lo, (c i).2.1 = some lo ∧ Q.pos tsz lo (c i).2.2 = p
  all : ∀ i ∈ L, i ∉ T → ∀ lo, (c i).2.1 = some lo → i ∈ ch (c i).1 (Q.pos tsz lo (c i).2.2)
  nd : ∀ v p, (ch v p).Nodup
  fmem : ∀ i ∈ free, i ∉ L ∧ 2 ≤ i ∧ i < size
  fnd : free.Nodup

/-- the reference counts: `x` external references, `E` references from outside the table -/
structure Rf (x : Nat → Nat) (E L : List Nat) (c : Co) (r : Nat → Nat) : Prop where
  cnt : ∀ i ∈ L, maxref ≤ r i ∨ x i + E.count i + cnt c L i ≤ r i
  z : ∀ i, 2 ≤ i → i ∉ L → r i = 0
  xz : ∀ i, 0 < x i → i ∈ L
  ez : ∀ i ∈ E, i < 2 ∨ i ∈ L

structure SI (Q : RPar) (o : Nat → Nat) (a b : Nat) (x : Nat → Nat) (T : List Nat) (E : List Nat) (D : Nat → Fn) (L : List Nat)
    (s : RS) : Prop where
  cr : Cr s.n s.size o a b T D L (cores s.nd)
  ch : Chn Q s.size s.tsz T L s.ch s.free (cores s.nd)
  rf : Rf x E L (cores s.nd) (refs s.nd)

/-! ### Reference counts -/

theorem cores_incRef (nd : Nat → Node) (i : Nat) : cores (incRef nd i) = cores nd := by
  funext j
  unfold cores incRef upd
  split
  · next h => rw [h]; rfl
  · rfl

theorem cores_decRef (nd : Nat → Node) (i : Nat) : cores (decRef nd i) = cores nd := by
  funext j
  unfold cores decRef upd
  split
  · next h => rw [h]; rfl
  · rfl

theorem refs_incRef (nd : Nat → Node) (i j : Nat) :
    refs (incRef nd i) j = if j = i ∧ refs nd i < maxref then refs nd i + 1 else refs nd j := by
  unfold refs incRef upd
  by_cases h : j = i
  · subst h; simp
  · simp [h]

theorem refs_decRef (nd : Nat → Node) (i j : Nat) :
    refs (decRef nd i) j = if j = i ∧ refs nd i ≠ maxref ∧ 0 < refs nd i then refs nd i - 1 else refs nd j := by
  unfold refs decRef upd
  by_cases h : j = i
  · subst h; simp
  · simp [h]

theorem Rf.inc {x : Nat → Nat} {E L : List Nat} {c : Co} {nd : Nat → Node} (h : Rf x E L c (refs nd)) {i : Nat}
    (hi : i < 2 ∨ i ∈ L) : Rf x (i :: E) L c (refs (incRef nd i)) where
  cnt j hj := by
    rw [refs_incRef]
    have := h.cnt j hj
    by_cases hji : j = i
    · subst hji
      rw [List.count_cons_self]
      by_cases hm : refs nd j < maxref
      · rw [if_pos ⟨rfl, hm⟩]; omega
      · rw [if_neg (by omega)]; omega
    · rw [if_neg (by tauto), List.count_cons_of_ne (Ne.symm hji)]
      exact this
  z j h2 hj := by
    rw [refs_incRef, if_neg]
    · exact h.z j h2 hj
    · rintro ⟨rfl, _⟩
      rcases hi with hi | hi
      · omega
      · exact hj hi
  xz := h.xz
  ez j hj := by
    rcases List.mem_cons.1 hj with rfl | hj
    · exact hi
    · exact h.ez j hj

theorem Rf.dec {x : Nat → Nat} {E L : List Nat} {c : Co} {nd : Nat → Node} {i : Nat} (h : Rf x (i :: E) L c (refs nd)) :
    Rf x E L c (refs (decRef nd i)) where
  cnt j hj := by
    rw [refs_decRef]
    have := h.cnt j hj
    by_cases hji : j = i
    · subst hji
      rw [List.count_cons_self] at this
      split <;> omega
    · rw [if_neg (by tauto)]
      rw [List.count_cons_of_ne (Ne.symm hji)] at this
      exact this
  z j h2 hj := by
    rw [refs_decRef]
    have := h.z j h2 hj
    split
    · next hh => rw [hh.1] at this; omega
    · exact this
  xz := h.xz
  ez j hj := h.ez j (by simp [hj])

theorem cnt_erase {c : Co} {L : List Nat} {q : Nat} (hq : q ∈ L) (i : Nat) :
    cnt c L i = (kids c q).count i + cnt c (L.erase q) i := by
  unfold cnt
  have h := (List.perm_cons_erase hq).flatMap_right (kids c)
  rw [h.count_eq, List.flatMap_cons, List.count_append]

theorem kids_upd_ne {c : Co} {q i : Nat} {y : Nat × Option Nat × Nat} (h : i ≠ q) : kids (upd c q y) i = kids c i := by
  unfold kids
  rw [upd_ne _ _ h]

theorem cnt_upd {c : Co} {L : List Nat} {q : Nat} (hq : q ∉ L) (y : Nat × Option Nat × Nat) (i : Nat) :
    cnt (upd c q y) L i = cnt c L i := by
  unfold cnt
  congr 1
  refine List.flatMap_congr fun j hj => kids_upd_ne ?_
  rintro rfl
  exact hq hj

theorem cnt_cons {c : Co} {L : List Nat} {q : Nat} (i : Nat) : cnt c (q :: L) i = (kids c q).count i + cnt c L i := by
  simp [cnt, List.flatMap_cons, List.count_append]

theorem cnt_pos {c : Co} {L : List Nat} {i d : Nat} (hi : i ∈ L) (hd : d ∈ kids c i) : 0 < cnt c L d :=
  List.count_pos_iff.2 (List.mem_flatMap.2 ⟨i, hi, hd⟩)

theorem Cr.kid {n size : Nat} {o : Nat → Nat} {a b : Nat} {T : List Nat} {D : Nat → Fn} {L : List Nat} {c : Co}
    (h : Cr n size o a b T D L c) {i d : Nat} (hi : i ∈ L) (hd : d ∈ kids c i) : d < 2 ∨ d ∈ L := by
  obtain ⟨lo, h1, _, h3, h4, _⟩ := h.node i hi
  rw [kids_some h1] at hd
  simp at hd
  rcases hd with rfl | rfl
  · exact h3
  · exact h4

theorem Cr.cnt_zero {n size : Nat} {o : Nat → Nat} {a b : Nat} {T : List Nat} {D : Nat → Fn} {L : List Nat} {c : Co}
    (h : Cr n size o a b T D L c) {i : Nat} (h2 : 2 ≤ i) (hi : i ∉ L) : cnt c L i = 0 := by
  refine List.count_eq_zero.2 fun hm => ?_
  obtain ⟨j, h1, h3⟩ := List.mem_flatMap.1 hm
  rcases h.kid h1 h3 with h4 | h4
  · omega
  · exact hi h4

/-! ### A new node -/

section New
variable {n size : Nat} {o : Nat → Nat} {a b : Nat} {T : List Nat} {D : Nat → Fn} {L : List Nat} {c : Co}

/-- nodes below a variable do not depend on it -/
theorem Cr.below (h : Cr n size o a b T D L c) (hoab : o b < o a) {lo w : Nat} (hl : lo < 2 ∨ lo ∈ L)
    (ho : 2 ≤ lo → o a < o (c lo).1) (hw : w < n) (hwa : o w ≤ o a) : Ind (D lo) w := by
  by_cases h2 : lo < 2
  · have : lo = 0 ∨ lo = 1 := by omega
    rcases this with rfl | rfl
    · rw [h.d0]; exact fun _ _ => rfl
    · rw [h.d1]; exact fun _ _ => rfl
  · have hl : lo ∈ L := hl.resolve_left h2
    refine h.ind lo hl w hw (by have := ho (by omega); omega) fun ht => ?_
    have := (h.tT lo ht).2.1
    have := ho (by omega)
    simp_all

theorem Cr.new (h : Cr n size o a b T D L c) (hoab : o b < o a) (ha : a < n) (hb : b < n) {p lo hi : Nat} (hp : p ∉ L)
    (hp2 : 2 ≤ p) (hps : p < size) (hne : lo ≠ hi) (hlo : lo < 2 ∨ lo ∈ L) (hhi : hi < 2 ∨ hi ∈ L)
    (olo : 2 ≤ lo → o a < o (c lo).1) (ohi : 2 ≤ hi → o a < o (c hi).1)
    (hnew : ∀ i ∈ L, i ∉ T → c i ≠ (a, some lo, hi)) :
    Cr n size o a b T (upd D p fun ρ => if ρ a then D hi ρ else D lo ρ) (p :: L) (upd c p (a, some lo, hi)) := by
  have pne : ∀ i, (i < 2 ∨ i ∈ L) → i ≠ p := by
    rintro i (hi | hi) rfl
    · omega
    · exact hp hi
  have hD : ∀ i, (i < 2 ∨ i ∈ L) → upd D p (fun ρ => if ρ a then D hi ρ else D lo ρ) i = D i :=
    fun i hi => upd_ne _ _ (pne i hi)
  have hc : ∀ i, (i < 2 ∨ i ∈ L) → upd c p (a, some lo, hi) i = c i := fun i hi => upd_ne _ _ (pne i hi)
  have hk : ∀ i, i ∈ L → kids (upd c p (a, some lo, hi)) i = kids c i := fun i hi => kids_upd_ne (pne i (.inr hi))
  have hkp : kids (upd c p (a, some lo, hi)) p = [lo, hi] := by simp [kids]
  have hcp : upd c p (a, some lo, hi) p = (a, some lo, hi) := by simp
  have hTp : p ∉ T := fun ht => hp (h.tT p ht).1
  have indL : ∀ w, w < n → o w ≤ o a → Ind (D lo) w := fun w hw hwa => h.below hoab hlo olo hw hwa
  have indH : ∀ w, w < n → o w ≤ o a → Ind (D hi) w := fun w hw hwa => h.below hoab hhi ohi hw hwa
  have hfne : D lo ≠ D hi := fun e => hne (h.inj _ _ hlo hhi e)
  have hDp : upd D p (fun ρ => if ρ a then D hi ρ else D lo ρ) p = fun ρ => if ρ a then D hi ρ else D lo ρ := by simp
  have depA : ¬Ind (fun ρ => if ρ a then D hi ρ else D lo ρ : Fn) a :=
    dep_ite (fun _ => rfl) (indL a ha (Nat.le_refl _)) (indH a ha (Nat.le_refl _)) hfne
  have indA : ∀ w, w < n → o w < o a → Ind (fun ρ => if ρ a then D hi ρ else D lo ρ : Fn) w := fun w hw hwa =>
    Ind.ite (fun _ => rfl) (by rintro rfl; omega) (indL w hw (by omega)) (indH w hw (by omega))
  have hinj : ∀ j, (j < 2 ∨ j ∈ L) → D j ≠ fun ρ => if ρ a then D hi ρ else D lo ρ := by
    intro j hj e
    by_cases h2 : j < 2
    · have : j = 0 ∨ j = 1 := by omega
      rcases this with rfl | rfl
      · rw [← e, h.d0] at depA; exact depA fun _ _ => rfl
      · rw [← e, h.d1] at depA; exact depA fun _ _ => rfl
    · have hj : j ∈ L := hj.resolve_left h2
      obtain ⟨jl, j1, j2, j3, j4, j5⟩ := h.node j hj
      have hd := h.dep j hj
      rw [e] at hd
      have h3 : ¬o (c j).1 < o a := fun hh => hd (indA _ j2 hh)
      by_cases h4 : o a < o (c j).1
      · refine depA ?_
        rw [← e]
        refine h.ind j hj a ha h4 fun ht => ?_
        have := (h.tT j ht).2.1
        rw [this] at h4
        omega
      · have h5 : (c j).1 = a := h.oinj _ _ j2 ha (by omega)
        have h6 : j ∉ T := fun ht => h.depT j ht (by rw [e]; exact indA b hb hoab)
        have ho := h.ord j hj h6
        rw [kids_some j1, h5] at ho
        have i0 : Ind (D jl) a := h.below hoab j3 (ho jl (by simp)) ha (Nat.le_refl _)
        have i1 : Ind (D (c j).2.2) a := h.below hoab j4 (ho _ (by simp)) ha (Nat.le_refl _)
        rw [h5] at j5
        have e0 : D jl = D lo := by
          funext ρ
          rw [ite_low j5 i0 ρ, e, ite_low (fun _ => rfl) (indL a ha (Nat.le_refl _)) ρ]
        have e1 : D (c j).2.2 = D hi := by
          funext ρ
          rw [ite_high j5 i1 ρ, e, ite_high (fun _ => rfl) (indH a ha (Nat.le_refl _)) ρ]
        have e2 := h.inj _ _ j3 hlo e0
        have e3 := h.inj _ _ j4 hhi e1
        refine hnew j hj h6 ?_
        rw [← e2, ← e3, ← h5, ← j1]
  constructor
  · exact h.sz
  · exact List.nodup_cons.2 ⟨hp, h.lnd⟩
  · intro i hi
    rcases List.mem_cons.1 hi with rfl | hi
    · exact ⟨hp2, hps⟩
    · exact h.rng i hi
  · rw [hD 0 (by omega)]; exact h.d0
  · rw [hD 1 (by omega)]; exact h.d1
  · intro i hi
    rw [hc i (.inl hi)]; exact h.l0 i hi
  · intro i hi'
    rcases List.mem_cons.1 hi' with rfl | hi'
    · rw [hcp, hDp]
      refine ⟨lo, rfl, ha, hlo.imp id (by simp +contextual), hhi.imp id (by simp +contextual), fun ρ => ?_⟩
      rw [hD _ hlo, hD _ hhi]
    · rw [hc i (.inr hi'), hD i (.inr hi')]
      obtain ⟨jl, j1, j2, j3, j4, j5⟩ := h.node i hi'
      refine ⟨jl, j1, j2, j3.imp id (by simp +contextual), j4.imp id (by simp +contextual), fun ρ => ?_⟩
      rw [hD _ j3, hD _ j4]
      exact j5 ρ
  · intro i j hi' hj' e
    have hcase : ∀ i, (i < 2 ∨ i ∈ p :: L) → i = p ∨ (i < 2 ∨ i ∈ L) := fun i hi => by
      rcases hi with hi | hi
      · exact .inr (.inl hi)
      · exact (List.mem_cons.1 hi).imp id .inr
    rcases hcase i hi' with rfl | gi <;> rcases hcase j hj' with rfl | gj
    · rfl
    · rw [hDp, hD j gj] at e; exact absurd e.symm (hinj j gj)
    · rw [hDp, hD i gi] at e; exact absurd e (hinj i gi)
    · rw [hD i gi, hD j gj] at e; exact h.inj i j gi gj e
  · intro i hi' w hw
    rcases List.mem_cons.1 hi' with rfl | hi'
    · rw [hcp, hDp]
      exact fun hh _ => indA w hw hh
    · rw [hc i (.inr hi'), hD i (.inr hi')]
      exact h.ind i hi' w hw
  · intro i hi'
    rcases List.mem_cons.1 hi' with rfl | hi'
    · rw [hcp, hDp]; exact depA
    · rw [hc i (.inr hi'), hD i (.inr hi')]; exact h.dep i hi'
  · intro i hi'
    rw [hD i (.inr (h.tT i hi').1)]; exact h.depT i hi'
  · intro i hi' ht d hd h2
    rcases List.mem_cons.1 hi' with rfl | hi'
    · rw [hkp] at hd
      rw [hcp]
      simp at hd
      rcases hd with rfl | rfl
      · rw [hc _ hlo]; exact olo h2
      · rw [hc _ hhi]; exact ohi h2
    · rw [hk i hi'] at hd
      rw [hc i (.inr hi'), hc d (h.kid hi' hd)]
      exact h.ord i hi' ht d hd h2
  · intro i hi' hb' d hd
    rcases List.mem_cons.1 hi' with rfl | hi'
    · rw [hcp] at hb'
      have hb' : a = b := hb'
      rw [hb'] at hoab
      omega
    · rw [hk i hi'] at hd
      rw [hc i (.inr hi')] at hb'
      exact h.bT i hi' hb' d hd
  · intro i ht
    obtain ⟨t1, t2, t3⟩ := h.tT i ht
    refine ⟨by simp [t1], by rw [hc i (.inr t1)]; exact t2, fun d hd h2 => ?_⟩
    rw [hk i t1] at hd
    have hdL : d ∈ L := (h.kid t1 hd).resolve_left (by omega)
    rw [hc d (.inr hdL), hk d hdL]
    refine (t3 d hd h2).imp id fun ⟨u1, u2⟩ => ⟨u1, fun e he h3 => ?_⟩
    rw [hc e (h.kid hdL he)]
    exact u2 e he h3
  · exact h.tnd
  · exact h.oinj
  · intro i hi'
    rw [upd_ne _ _ (by omega)]
    exact h.out i hi'

end New

/-! ### Other contents outside of `L` -/

theorem kids_congr {c c' : Co} {i : Nat} (h : c' i = c i) : kids c' i = kids c i := by
  unfold kids
  rw [h]

theorem cnt_congr {c c' : Co} {L : List Nat} (h : ∀ i ∈ L, c' i = c i) (i : Nat) : cnt c' L i = cnt c L i := by
  unfold cnt
  congr 1
  exact List.flatMap_congr fun j hj => kids_congr (h j hj)

theorem Cr.cong {n size size' : Nat} {o : Nat → Nat} {a b : Nat} {T : List Nat} {D D' : Nat → Fn} {L : List Nat} {c c' : Co}
    (h : Cr n size o a b T D L c) (hs : size ≤ size') (hc : ∀ i, (i < 2 ∨ i ∈ L) → c' i = c i)
    (hD : ∀ i, (i < 2 ∨ i ∈ L) → D' i = D i)
    (hout : ∀ i, size' ≤ i → (c' i).2.1 = none) : Cr n size' o a b T D' L c' where
  sz := Nat.le_trans h.sz hs
  lnd := h.lnd
  rng i hi := ⟨(h.rng i hi).1, Nat.lt_of_lt_of_le (h.rng i hi).2 hs⟩
  d0 := by rw [hD 0 (by omega)]; exact h.d0
  d1 := by rw [hD 1 (by omega)]; exact h.d1
  l0 i hi := by rw [hc i (.inl hi)]; exact h.l0 i hi
  node i hi := by
    rw [hc i (.inr hi), hD i (.inr hi)]
    obtain ⟨lo, h1, h2, h3, h4, h5⟩ := h.node i hi
    exact ⟨lo, h1, h2, h3, h4, by rw [hD _ h3, hD _ h4]; exact h5⟩
  inj i j hi hj := by rw [hD i hi, hD j hj]; exact h.inj i j hi hj
  ind i hi := by rw [hc i (.inr hi), hD i (.inr hi)]; exact h.ind i hi
  dep i hi := by rw [hc i (.inr hi), hD i (.inr hi)]; exact h.dep i hi
  depT i hi := by rw [hD i (.inr (h.tT i hi).1)]; exact h.depT i hi
  ord i hi ht d hd := by
    rw [kids_congr (hc i (.inr hi))] at hd
    rw [hc i (.inr hi), hc d (h.kid hi hd)]
    exact h.ord i hi ht d hd
  bT i hi hb d hd := by
    rw [kids_congr (hc i (.inr hi))] at hd
    rw [hc i (.inr hi)] at hb
    exact h.bT i hi hb d hd
  tT i ht := by
    obtain ⟨t1, t2, t3⟩ := h.tT i ht
    refine ⟨t1, by rw [hc i (.inr t1)]; exact t2, fun d hd h2 => ?_⟩
    rw [kids_congr (hc i (.inr t1))] at hd
    have hdL := h.kid t1 hd
    rw [hc d hdL, kids_congr (hc d hdL)]
    refine (t3 d hd h2).imp id fun ⟨u1, u2⟩ => ⟨u1, fun e he h3 => ?_⟩
    rw [hc e (h.kid (hdL.resolve_left (by omega)) he)]
    exact u2 e he h3
  tnd := h.tnd
  oinj := h.oinj
  out := hout

theorem Chn.cong {Q : RPar} {size size' tsz : Nat} {T L : List Nat} {ch : Nat → Nat → List Nat} {free free' : List Nat} {c c' : Co}
    (h : Chn Q size tsz T L ch free c) (hc : ∀ i ∈ L, c' i = c i)
    (hf : ∀ i ∈ free', i ∉ L ∧ 2 ≤ i ∧ i < size') (hn : free'.Nodup) : Chn Q size' tsz T L ch free' c' where
  mem v p i hi := by
    obtain ⟨h1, h2⟩ := h.mem v p i hi
    rw [hc i h1]
    exact ⟨h1, h2⟩
  all i hi ht := by rw [hc i hi]; exact h.all i hi ht
  nd := h.nd
  fmem := hf
  fnd := hn

theorem Rf.conv {x : Nat → Nat} {E E' L : List Nat} {c c' : Co} {r r' : Nat → Nat} (h : Rf x E L c r)
    (he : ∀ i ∈ L, E.count i + Verif.Bdd.cnt c L i = E'.count i + Verif.Bdd.cnt c' L i) (hz : ∀ i ∈ E', i < 2 ∨ i ∈ L)
    (hr : ∀ i, 2 ≤ i → r' i = r i) (h2 : ∀ i ∈ L, 2 ≤ i) :
    Rf x E' L c' r' where
  cnt i hi := by
    have := h.cnt i hi
    have := he i hi
    rw [hr i (h2 i hi)]
    omega
  z i h2 hi := by rw [hr i h2]; exact h.z i h2 hi
  xz := h.xz
  ez := hz

/-- what a step keeps -/
structure Grew (s s' : RS) (D D' : Nat → Fn) (L L' : List Nat) : Prop where
  n : s'.n = s.n
  l2v : s'.l2v = s.l2v
  v2l : s'.v2l = s.v2l
  mat : s'.mat = s.mat
  tsz : s'.tsz = s.tsz
  size : s.size ≤ s'.size
  sub : ∀ i ∈ L, i ∈ L'
  D : ∀ i, (i < 2 ∨ i ∈ L) → D' i = D i
  core : ∀ i, (i < 2 ∨ i ∈ L) → cores s'.nd i = cores s.nd i

theorem Grew.refl (s : RS) (D : Nat → Fn) (L : List Nat) : Grew s s D D L L :=
  ⟨rfl, rfl, rfl, rfl, rfl, Nat.le_refl _, fun _ h => h, fun _ _ => rfl, fun _ _ => rfl⟩

theorem Grew.trans {s s1 s2 : RS} {D D1 D2 : Nat → Fn} {L L1 L2 : List Nat} (h : Grew s s1 D D1 L L1) (g : Grew s1 s2 D1 D2 L1 L2) :
    Grew s s2 D D2 L L2 :=
  ⟨g.n.trans h.n, g.l2v.trans h.l2v, g.v2l.trans h.v2l, g.mat.trans h.mat, g.tsz.trans h.tsz, Nat.le_trans h.size g.size,
    fun i hi => g.sub i (h.sub i hi), fun i hi => (g.D i (hi.imp id (h.sub i))).trans (h.D i hi),
    fun i hi => (g.core i (hi.imp id (h.sub i))).trans (h.core i hi)⟩

section Make
variable {P : Par} {Q : RPar} {o : Nat → Nat} {a b : Nat} {x : Nat → Nat} {T E : List Nat} {D : Nat → Fn} {L : List Nat} {s : RS}

theorem rResize_spec (h : SI Q o a b x T E D L s) (hg : s.size < P.grow s.size) (hf : s.free = []) :
    SI Q o a b x T E D L (rResize P s) ∧ Grew s (rResize P s) D D L L ∧ (rResize P s).free ≠ [] := by
  have hlt : ∀ i, (i < 2 ∨ i ∈ L) → i < s.size := by
    rintro i (hi | hi)
    · have := h.cr.sz; omega
    · exact (h.cr.rng i hi).2
  have hc : ∀ i, (i < 2 ∨ i ∈ L) → cores (rResize P s).nd i = cores s.nd i := fun i hi => by
    show (if i < s.size then s.nd i else {} : Node).core = _
    rw [if_pos (hlt i hi)]
    rfl
  have hfr : (rResize P s).free = List.range' s.size (P.grow s.size - s.size) := by simp [rResize, hf]
  refine ⟨⟨h.cr.cong (Nat.le_of_lt hg) hc (fun _ _ => rfl) fun i hi => ?_, h.ch.cong (fun i hi => hc i (.inr hi)) ?_ ?_, ?_⟩,
    ⟨rfl, rfl, rfl, rfl, rfl, Nat.le_of_lt hg, fun _ h => h, fun _ _ => rfl, hc⟩, ?_⟩
  · show (if i < s.size then s.nd i else {} : Node).core.2.1 = none
    have : P.grow s.size ≤ i := hi
    rw [if_neg (by omega)]
    rfl
  · intro i hi
    rw [hfr] at hi
    simp at hi
    have := h.cr.sz
    refine ⟨fun hL => ?_, by omega, ?_⟩
    · have := hlt i (.inr hL); omega
    · show i < P.grow s.size
      omega
  · rw [hfr]; exact List.nodup_range'
  · refine ⟨fun i hi => ?_, fun i h2 hi => ?_, h.rf.xz, h.rf.ez⟩
    · have := h.rf.cnt i hi
      have e : refs (rResize P s).nd i = refs s.nd i := by
        show (if i < s.size then s.nd i else {} : Node).ref = _
        rw [if_pos (hlt i (.inr hi))]
        rfl
      rw [e, cnt_congr fun i hi => hc i (.inr hi)]
      exact this
    · show (if i < s.size then s.nd i else {} : Node).ref = 0
      split
      · exact h.rf.z i h2 hi
      · rfl
  · rw [hfr]
    intro he
    have := congrArg List.length he
    simp at this
    omega

theorem rAlloc_spec (h : SI Q o a b x T E D L s) (hoab : o b < o a) (ha : a < s.n) (hb : b < s.n) (hf : s.free ≠ []) {lo hi0 : Nat}
    (hne : lo ≠ hi0) (hlo : lo < 2 ∨ lo ∈ L) (hhi : hi0 < 2 ∨ hi0 ∈ L)
    (olo : 2 ≤ lo → o a < o (cores s.nd lo).1) (ohi : 2 ≤ hi0 → o a < o (cores s.nd hi0).1)
    (hnew : ∀ i ∈ L, i ∉ T → cores s.nd i ≠ (a, some lo, hi0)) :
    ∃ p s' D', rAlloc Q s a lo hi0 = some (p, s') ∧ SI Q o a b x T (p :: E) D' (p :: L) s' ∧
      Grew s s' D D' L (p :: L) ∧ (∀ ρ, D' p ρ = if ρ a then D hi0 ρ else D lo ρ) ∧ cores s'.nd p = (a, some lo, hi0) ∧ 2 ≤ p ∧
      p ∉ L := by
  obtain ⟨p, ps, hfe⟩ := List.exists_cons_of_ne_nil hf
  obtain ⟨hpL, hp2, hps⟩ := h.ch.fmem p (by simp [hfe])
  have hTp : p ∉ T := fun ht => hpL (h.cr.tT p ht).1
  have hal : rAlloc Q s a lo hi0 = some (p, { s with
      nd := incRef (incRef (upd s.nd p { ref := 1, lvl := a, low := some lo, high := hi0 }) lo) hi0
      free := ps
      ch := upd s.ch a (upd (s.ch a) (Q.pos s.tsz lo hi0) (p :: s.ch a (Q.pos s.tsz lo hi0))) }) := by
    unfold rAlloc
    rw [hfe]
  have hcr : cores (incRef (incRef (upd s.nd p { ref := 1, lvl := a, low := some lo, high := hi0 }) lo) hi0) =
      upd (cores s.nd) p (a, some lo, hi0) := by
    rw [cores_incRef, cores_incRef]
    funext i
    unfold cores upd
    split <;> rfl
  have pne : ∀ i, (i < 2 ∨ i ∈ L) → i ≠ p := by
    rintro i (hi | hi) rfl
    · omega
    · exact hpL hi
  have hnd := h.ch.fnd
  rw [hfe] at hnd
  obtain ⟨np, nps⟩ := List.nodup_cons.1 hnd
  refine ⟨p, _, upd D p fun ρ => if ρ a then D hi0 ρ else D lo ρ, hal, ⟨?_, ?_, ?_⟩, ⟨rfl, rfl, rfl, rfl, rfl, Nat.le_refl _,
    fun i hi => by simp [hi], fun i hi => upd_ne _ _ (pne i hi), fun i hi => ?_⟩, fun ρ => by simp, ?_, hp2, hpL⟩
  · show Cr s.n s.size o a b T _ _ (cores (incRef _ _))
    rw [hcr]
    exact h.cr.new hoab ha hb hpL hp2 hps hne hlo hhi olo ohi hnew
  · show Chn Q s.size s.tsz T _ (upd s.ch a _) ps (cores (incRef _ _))
    rw [hcr]
    constructor
    · intro v q i hi
      have hcase : i ∈ s.ch v q ∨ (i = p ∧ v = a ∧ q = Q.pos s.tsz lo hi0) := by
        by_cases hv : v = a
        · subst hv
          rw [upd_self] at hi
          by_cases hq : q = Q.pos s.tsz lo hi0
          · subst hq
            rw [upd_self] at hi
            rcases List.mem_cons.1 hi with rfl | hi
            · exact .inr ⟨rfl, rfl, rfl⟩
            · exact .inl hi
          · rw [upd_ne _ _ hq] at hi
            exact .inl hi
        · rw [upd_ne _ _ hv] at hi
          exact .inl hi
      rcases hcase with hi | ⟨rfl, rfl, rfl⟩
      · obtain ⟨h1, h2, h3⟩ := h.ch.mem v q i hi
        rw [upd_ne _ _ (pne i (.inr h1))]
        exact ⟨by simp [h1], h2, h3⟩
      · rw [upd_self]
        exact ⟨by simp, hTp, rfl, lo, rfl, rfl⟩
    · intro i hi ht l hl
      rcases List.mem_cons.1 hi with rfl | hi
      · rw [upd_self] at hl ⊢
        cases hl
        simp
      · rw [upd_ne _ _ (pne i (.inr hi))] at hl ⊢
        have := h.ch.all i hi ht l hl
        by_cases hv : (cores s.nd i).1 = a
        · rw [hv] at this ⊢
          rw [upd_self]
          by_cases hq : Q.pos s.tsz l (cores s.nd i).2.2 = Q.pos s.tsz lo hi0
          · rw [hq] at this ⊢
            rw [upd_self]
            simp [this]
          · rw [upd_ne _ _ hq]; exact this
        · rw [upd_ne _ _ hv]; exact this
    · intro v q
      by_cases hv : v = a
      · subst hv
        rw [upd_self]
        by_cases hq : q = Q.pos s.tsz lo hi0
        · subst hq
          rw [upd_self]
          exact List.nodup_cons.2 ⟨fun hm => hpL (h.ch.mem _ _ _ hm).1, h.ch.nd _ _⟩
        · rw [upd_ne _ _ hq]; exact h.ch.nd _ _
      · rw [upd_ne _ _ hv]; exact h.ch.nd _ _
    · intro i hi
      obtain ⟨h1, h2⟩ := h.ch.fmem i (by simp [hfe, hi])
      refine ⟨fun hm => ?_, h2⟩
      rcases List.mem_cons.1 hm with rfl | hm
      · exact np hi
      · exact h1 hm
    · exact nps
  · show Rf x _ _ (cores (incRef _ _)) _
    rw [hcr]
    have r0 : Rf x (p :: E) (p :: L) (upd (cores s.nd) p (a, none, hi0))
        (refs (upd s.nd p { ref := 1, lvl := a, low := some lo, high := hi0 })) := by
      constructor
      · intro i hi
        have hk : kids (upd (cores s.nd) p (a, none, hi0)) p = [] := by simp [kids]
        rw [cnt_cons, hk, cnt_upd hpL]
        rcases List.mem_cons.1 hi with rfl | hi
        · right
          have e1 : x i = 0 := by
            by_cases hx : x i = 0
            · exact hx
            · exact absurd (h.rf.xz i (by omega)) hpL
          have e2 : E.count i = 0 := by
            refine List.count_eq_zero.2 fun he => ?_
            rcases h.rf.ez i he with h4 | h4
            · omega
            · exact hpL h4
          rw [List.count_cons_self, e1, e2, h.cr.cnt_zero hp2 hpL]
          simp [refs]
        · have hip := pne i (.inr hi)
          rw [List.count_cons_of_ne (Ne.symm hip)]
          have e : refs (upd s.nd p { ref := 1, lvl := a, low := some lo, high := hi0 }) i = refs s.nd i := by
            unfold refs; rw [upd_ne _ _ hip]
          rw [e]
          have := h.rf.cnt i hi
          simpa using this
      · intro i h2 hi
        have hip : i ≠ p := by rintro rfl; simp at hi
        unfold refs
        rw [upd_ne _ _ hip]
        exact h.rf.z i h2 (by simp at hi; tauto)
      · intro i hx
        simp [h.rf.xz i hx]
      · intro i hi
        rcases List.mem_cons.1 hi with rfl | hi
        · simp
        · exact (h.rf.ez i hi).imp id (by simp +contextual)
    have r1 := (r0.inc (hlo.imp id (by simp +contextual))).inc (hhi.imp id (by simp +contextual))
    refine r1.conv (fun i hi => ?_) r0.ez (fun _ _ => rfl) (fun i hi => ?_)
    · rw [cnt_cons, cnt_cons, cnt_upd hpL, cnt_upd hpL]
      have k1 : kids (upd (cores s.nd) p (a, none, hi0)) p = [] := by simp [kids]
      have k2 : kids (upd (cores s.nd) p (a, some lo, hi0)) p = [lo, hi0] := by simp [kids]
      rw [k1, k2]
      simp only [List.count_cons, List.count_nil]
      omega
    · rcases List.mem_cons.1 hi with rfl | hi
      · exact hp2
      · exact (h.cr.rng i hi).1
  · show cores (incRef _ _) i = _
    rw [hcr, upd_ne _ _ (pne i hi)]
  · show cores (incRef _ _) p = _
    rw [hcr, upd_self]

theorem SI.inc (h : SI Q o a b x T E D L s) {i : Nat} (hi : i < 2 ∨ i ∈ L) :
    SI Q o a b x T (i :: E) D L { s with nd := incRef s.nd i } where
  cr := by show Cr _ _ _ _ _ _ _ _ (cores (incRef _ _)); rw [cores_incRef]; exact h.cr
  ch := by show Chn _ _ _ _ _ _ _ (cores (incRef _ _)); rw [cores_incRef]; exact h.ch
  rf := by show Rf _ _ _ (cores (incRef _ _)) _; rw [cores_incRef]; exact h.rf.inc hi

theorem rMake_spec (hgr : ∀ s, s < P.grow s) (h : SI Q o a b x T E D L s) (hoab : o b < o a) (ha : a < s.n) (hb : b < s.n)
    {lo hi : Nat} (hlo : lo < 2 ∨ lo ∈ L) (hhi : hi < 2 ∨ hi ∈ L)
    (olo : 2 ≤ lo → o a < o (cores s.nd lo).1) (ohi : 2 ≤ hi → o a < o (cores s.nd hi).1) :
    ∃ g s' D' L', rMake P Q s a lo hi = some (g, s') ∧ SI Q o a b x T (g :: E) D' L' s' ∧ Grew s s' D D' L L' ∧
      (∀ ρ, D' g ρ = if ρ a then D hi ρ else D lo ρ) ∧ (g < 2 ∨ g ∈ L') ∧ g ∉ T ∧ (2 ≤ g → o a ≤ o (cores s'.nd g).1) := by
  have nT : ∀ i, (i < 2 ∨ i ∈ L) → (2 ≤ i → o a < o (cores s.nd i).1) → i ∉ T := fun i hi ho ht => by
    obtain ⟨t1, t2, _⟩ := h.cr.tT i ht
    have := ho (h.cr.rng i t1).1
    rw [t2] at this
    omega
  unfold rMake
  by_cases he : lo = hi
  · subst he
    rw [if_pos rfl]
    refine ⟨lo, _, D, L, rfl, h.inc hlo, ⟨rfl, rfl, rfl, rfl, rfl, Nat.le_refl _, fun _ h => h, fun _ _ => rfl,
      fun i _ => by show cores (incRef _ _) i = _; rw [cores_incRef]⟩, fun ρ => by simp, hlo, nT lo hlo olo, fun h2 => ?_⟩
    show _ ≤ o (cores (incRef _ _) lo).1
    rw [cores_incRef]
    exact Nat.le_of_lt (olo h2)
  · rw [if_neg he]
    cases hf : (s.ch a (Q.pos s.tsz lo hi)).find? (fun i => (s.nd i).low == some lo && (s.nd i).high == hi) with
    | some i =>
      have hm := List.mem_of_find?_eq_some hf
      have hp := List.find?_some hf
      simp at hp
      obtain ⟨m1, m2, m3, _⟩ := h.ch.mem _ _ _ hm
      refine ⟨i, _, D, L, rfl, h.inc (.inr m1), ⟨rfl, rfl, rfl, rfl, rfl, Nat.le_refl _, fun _ h => h, fun _ _ => rfl,
        fun i _ => by show cores (incRef _ _) i = _; rw [cores_incRef]⟩, ?_, .inr m1, m2, fun h2 => ?_⟩
      · obtain ⟨l, j1, _, _, _, j5⟩ := h.cr.node i m1
        have e1 : (cores s.nd i).2.1 = some lo := hp.1
        have e2 : (cores s.nd i).2.2 = hi := hp.2
        rw [e1] at j1
        cases j1
        rw [m3, e2] at j5
        exact j5
      · show _ ≤ o (cores (incRef _ _) i).1
        rw [cores_incRef, m3]
    | none =>
      have hnew : ∀ i ∈ L, i ∉ T → cores s.nd i ≠ (a, some lo, hi) := fun i hi ht e => by
        have := h.ch.all i hi ht lo (by rw [e])
        rw [e] at this
        have := List.find?_eq_none.1 hf i this
        have e1 : (s.nd i).low = some lo := congrArg (·.2.1) e
        have e2 : (s.nd i).high = _ := congrArg (·.2.2) e
        simp [e1, e2] at this
      by_cases hfr : s.free = []
      · obtain ⟨r1, r2, r3⟩ := rResize_spec (P := P) h (hgr _) hfr
        have hc := r2.core
        obtain ⟨p, s', D', q1, q2, q3, q4, q5, q6, q7⟩ := rAlloc_spec r1 hoab ha hb r3 he hlo hhi
          (by rw [hc _ hlo]; exact olo) (by rw [hc _ hhi]; exact ohi) (fun i hi ht => by rw [hc i (.inr hi)]; exact hnew i hi ht)
        simp only [if_pos hfr]
        exact ⟨p, s', D', _, q1, q2, r2.trans q3, q4, .inr (by simp), fun ht => q7 (h.cr.tT p ht).1, fun _ => by rw [q5]⟩
      · obtain ⟨p, s', D', q1, q2, q3, q4, q5, q6, q7⟩ := rAlloc_spec h hoab ha hb hfr he hlo hhi olo ohi hnew
        simp only [if_neg hfr]
        exact ⟨p, s', D', _, q1, q2, q3, q4, .inr (by simp), fun ht => q7 (h.cr.tT p ht).1, fun _ => by rw [q5]⟩

theorem Cr.repl {n size : Nat} {q : Nat} {T : List Nat} {c : Co} (h : Cr n size o a b (q :: T) D L c) (hb : b < n)
    (hoab : o b < o a) (hadj : ∀ v, v < n → o v < o a → o v ≤ o b) {g0 g1 : Nat}
    (h0 : g0 < 2 ∨ g0 ∈ L) (h1 : g1 < 2 ∨ g1 ∈ L) (t0 : g0 ∉ q :: T) (t1 : g1 ∉ q :: T) (o0 : 2 ≤ g0 → o a ≤ o (c g0).1)
    (o1 : 2 ≤ g1 → o a ≤ o (c g1).1) (hD : ∀ ρ, D q ρ = if ρ b then D g1 ρ else D g0 ρ) :
    Cr n size o a b T D L (upd c q (b, some g0, g1)) := by
  obtain ⟨qL, qa, qk⟩ := h.tT q (by simp)
  have q2 := (h.rng q qL).1
  obtain ⟨nq, nT⟩ := List.nodup_cons.1 h.tnd
  have hcq : upd c q (b, some g0, g1) q = (b, some g0, g1) := by simp
  have hkq : kids (upd c q (b, some g0, g1)) q = [g0, g1] := by simp [kids]
  have hc : ∀ i, i ≠ q → upd c q (b, some g0, g1) i = c i := fun i hi => upd_ne _ _ hi
  have hk : ∀ i, i ≠ q → kids (upd c q (b, some g0, g1)) i = kids c i := fun i hi => kids_upd_ne hi
  have g0q : g0 ≠ q := fun e => t0 (by simp [e])
  have g1q : g1 ≠ q := fun e => t1 (by simp [e])
  -- the variable of another node before and after
  constructor
  · exact h.sz
  · exact h.lnd
  · exact h.rng
  · exact h.d0
  · exact h.d1
  · intro i hi
    rw [hc i (by omega)]; exact h.l0 i hi
  · intro i hi
    by_cases hiq : i = q
    · subst hiq
      rw [hcq]
      exact ⟨g0, rfl, hb, h0, h1, hD⟩
    · rw [hc i hiq]; exact h.node i hi
  · exact h.inj
  · intro i hi w hw
    by_cases hiq : i = q
    · subst hiq
      rw [hcq]
      intro hwb _
      have hwb : o w < o b := hwb
      refine h.ind i hi w hw (by rw [qa]; omega) fun _ e => ?_
      rw [e] at hwb
      omega
    · rw [hc i hiq]
      intro h3 h4
      exact h.ind i hi w hw h3 fun ht => h4 ((List.mem_cons.1 ht).resolve_left hiq)
  · intro i hi
    by_cases hiq : i = q
    · subst hiq
      rw [hcq]; exact h.depT i (by simp)
    · rw [hc i hiq]; exact h.dep i hi
  · intro i ht
    exact h.depT i (by simp [ht])
  · intro i hi ht d hd h2
    by_cases hiq : i = q
    · subst hiq
      rw [hkq] at hd
      rw [hcq]
      simp at hd
      rcases hd with rfl | rfl
      · rw [hc _ g0q]
        exact Nat.lt_of_lt_of_le hoab (o0 h2)
      · rw [hc _ g1q]
        exact Nat.lt_of_lt_of_le hoab (o1 h2)
    · have ht' : i ∉ q :: T := fun hm => (List.mem_cons.1 hm).elim hiq ht
      rw [hk i hiq] at hd
      rw [hc i hiq]
      have h3 := h.ord i hi ht' d hd h2
      by_cases hdq : d = q
      · subst hdq
        rw [hcq]
        rw [qa] at h3
        obtain ⟨_, _, hv, _⟩ := h.node i hi
        have h4 := hadj _ hv h3
        have h5 : (c i).1 ≠ b := fun e => h.bT i hi e d hd (by simp)
        have h6 : o (c i).1 ≠ o b := fun e => h5 (h.oinj _ _ hv hb e)
        show _ < o b
        omega
      · rw [hc d hdq]; exact h3
  · intro i hi hib d hd
    by_cases hiq : i = q
    · subst hiq
      rw [hkq] at hd
      simp at hd
      rcases hd with rfl | rfl
      · exact fun hm => t0 (by simp [hm])
      · exact fun hm => t1 (by simp [hm])
    · rw [hk i hiq] at hd
      rw [hc i hiq] at hib
      exact fun hm => h.bT i hi hib d hd (by simp [hm])
  · intro i ht
    have hiq : i ≠ q := by rintro rfl; exact nq ht
    obtain ⟨u1, u2, u3⟩ := h.tT i (by simp [ht])
    refine ⟨u1, by rw [hc i hiq]; exact u2, fun d hd h2 => ?_⟩
    rw [hk i hiq] at hd
    have hne : a ≠ b := by rintro rfl; omega
    have hdq : d ≠ q := by
      rintro rfl
      rcases u3 d hd h2 with h4 | ⟨h4, _⟩
      · rw [qa] at h4; omega
      · rw [qa] at h4; exact hne h4
    rw [hc d hdq, hk d hdq]
    refine (u3 d hd h2).imp id fun ⟨v1, v2⟩ => ⟨v1, fun e he h3 => ?_⟩
    have heq : e ≠ q := by
      rintro rfl
      have := v2 e he h3
      rw [qa] at this; omega
    rw [hc e heq]
    exact v2 e he h3
  · exact nT
  · exact h.oinj
  · intro i hi
    have : i ≠ q := by
      rintro rfl
      have := (h.rng i qL).2
      omega
    rw [hc i this]
    exact h.out i hi

theorem replace_spec {q g0 g1 : Nat} (h : SI Q o a b x (q :: T) (g1 :: g0 :: E) D L s) (hb : b < s.n)
    (hoab : o b < o a) (hadj : ∀ v, v < s.n → o v < o a → o v ≤ o b)
    (h0 : g0 < 2 ∨ g0 ∈ L) (h1 : g1 < 2 ∨ g1 ∈ L) (t0 : g0 ∉ q :: T) (t1 : g1 ∉ q :: T) (o0 : 2 ≤ g0 → o a ≤ o (cores s.nd g0).1)
    (o1 : 2 ≤ g1 → o a ≤ o (cores s.nd g1).1) (hD : ∀ ρ, D q ρ = if ρ b then D g1 ρ else D g0 ρ) {f0 f1 : Nat}
    (hk : kids (cores s.nd) q = [f0, f1]) : SI Q o a b x T E D L (replace Q s b q f0 f1 g0 g1) := by
  obtain ⟨qL, qa, qk⟩ := h.cr.tT q (by simp)
  obtain ⟨nq, nT⟩ := List.nodup_cons.1 h.cr.tnd
  have hcr : cores (replace Q s b q f0 f1 g0 g1).nd = upd (cores s.nd) q (b, some g0, g1) := by
    have e := (cores_decRef (decRef s.nd f0) f1).trans (cores_decRef s.nd f0)
    funext i
    show (upd (decRef (decRef s.nd f0) f1) q _ i).core = _
    by_cases hi : i = q
    · subst hi
      rw [upd_self, upd_self]; rfl
    · rw [upd_ne _ _ hi, upd_ne _ _ hi]
      exact congrFun e i
  have hrf : refs (replace Q s b q f0 f1 g0 g1).nd = refs (decRef (decRef s.nd f0) f1) := by
    funext i
    show (upd (decRef (decRef s.nd f0) f1) q _ i).ref = _
    by_cases hi : i = q
    · subst hi
      rw [upd_self]; rfl
    · rw [upd_ne _ _ hi]; rfl
  refine ⟨?_, ?_, ?_⟩
  · rw [hcr]
    exact h.cr.repl hb hoab hadj h0 h1 t0 t1 o0 o1 hD
  · rw [hcr]
    show Chn Q s.size s.tsz T L (upd s.ch b (upd (s.ch b) (Q.pos s.tsz g0 g1) (q :: s.ch b (Q.pos s.tsz g0 g1)))) s.free _
    have qch : ∀ v p, q ∉ s.ch v p := fun v p hm => (h.ch.mem v p q hm).2.1 (by simp)
    constructor
    · intro v p i hi
      have hcase : i ∈ s.ch v p ∨ (i = q ∧ v = b ∧ p = Q.pos s.tsz g0 g1) := by
        by_cases hv : v = b
        · subst hv
          rw [upd_self] at hi
          by_cases hq : p = Q.pos s.tsz g0 g1
          · subst hq
            rw [upd_self] at hi
            rcases List.mem_cons.1 hi with rfl | hi
            · exact .inr ⟨rfl, rfl, rfl⟩
            · exact .inl hi
          · rw [upd_ne _ _ hq] at hi
            exact .inl hi
        · rw [upd_ne _ _ hv] at hi
          exact .inl hi
      rcases hcase with hi | ⟨rfl, rfl, rfl⟩
      · obtain ⟨m1, m2, m3⟩ := h.ch.mem v p i hi
        rw [upd_ne _ _ (by rintro rfl; exact m2 (by simp))]
        exact ⟨m1, fun hm => m2 (by simp [hm]), m3⟩
      · rw [upd_self]
        exact ⟨qL, nq, rfl, g0, rfl, rfl⟩
    · intro i hi ht l hl
      by_cases hiq : i = q
      · subst hiq
        rw [upd_self] at hl ⊢
        cases hl
        simp
      · rw [upd_ne _ _ hiq] at hl ⊢
        have := h.ch.all i hi (fun hm => (List.mem_cons.1 hm).elim hiq ht) l hl
        by_cases hv : (cores s.nd i).1 = b
        · rw [hv] at this ⊢
          rw [upd_self]
          by_cases hq : Q.pos s.tsz l (cores s.nd i).2.2 = Q.pos s.tsz g0 g1
          · rw [hq] at this ⊢
            rw [upd_self]
            simp [this]
          · rw [upd_ne _ _ hq]; exact this
        · rw [upd_ne _ _ hv]; exact this
    · intro v p
      by_cases hv : v = b
      · subst hv
        rw [upd_self]
        by_cases hq : p = Q.pos s.tsz g0 g1
        · subst hq
          rw [upd_self]
          exact List.nodup_cons.2 ⟨qch _ _, h.ch.nd _ _⟩
        · rw [upd_ne _ _ hq]; exact h.ch.nd _ _
      · rw [upd_ne _ _ hv]; exact h.ch.nd _ _
    · exact h.ch.fmem
    · exact h.ch.fnd
  · rw [hcr, hrf]
    have r0 : Rf x (f0 :: f1 :: E) L (upd (cores s.nd) q (b, some g0, g1)) (refs s.nd) := by
      refine h.rf.conv (fun i hi => ?_) (fun i hi => ?_) (fun _ _ => rfl) fun i hi => (h.cr.rng i hi).1
      · rw [cnt_erase (c := cores s.nd) qL, cnt_erase (c := upd _ _ _) qL,
          cnt_upd (fun hm => (List.Nodup.mem_erase_iff h.cr.lnd).1 hm |>.1 rfl), hk]
        have k2 : kids (upd (cores s.nd) q (b, some g0, g1)) q = [g0, g1] := by simp [kids]
        rw [k2]
        simp only [List.count_cons, List.count_nil]
        omega
      · have hkid : ∀ d ∈ kids (cores s.nd) q, d < 2 ∨ d ∈ L := fun d hd => h.cr.kid qL hd
        rw [hk] at hkid
        rcases List.mem_cons.1 hi with rfl | hi
        · exact hkid _ (by simp)
        · rcases List.mem_cons.1 hi with rfl | hi
          · exact hkid _ (by simp)
          · exact h.rf.ez i (by simp [hi])
    exact r0.dec.dec

theorem cof_spec (h : SI Q o a b x T E D L s) (hb : b < s.n) (hoab : o b < o a) {f : Nat} (hf : f < 2 ∨ f ∈ L)
    (hk : 2 ≤ f → o a < o (cores s.nd f).1 ∨
      ((cores s.nd f).1 = b ∧ ∀ e ∈ kids (cores s.nd) f, 2 ≤ e → o a < o (cores s.nd e).1)) :
    ∃ u w, cof s.nd b f = some (u, w) ∧ (u < 2 ∨ u ∈ L) ∧ (w < 2 ∨ w ∈ L) ∧ (2 ≤ u → o a < o (cores s.nd u).1) ∧
      (2 ≤ w → o a < o (cores s.nd w).1) ∧ ∀ ρ, D f ρ = if ρ b then D w ρ else D u ρ := by
  unfold cof
  by_cases hl : (s.nd f).lvl = b
  · rw [if_pos hl]
    have h2 : ¬f < 2 := fun h2 => by
      have := h.cr.l0 f h2
      have : (s.nd f).lvl = s.n := this
      omega
    have hL := hf.resolve_left h2
    obtain ⟨lo, n1, n2, n3, n4, n5⟩ := h.cr.node f hL
    have n1' : (s.nd f).low = some lo := n1
    have hc : (cores s.nd f).1 = b := hl
    rw [n1']
    rcases hk (by omega) with h3 | ⟨_, h3⟩
    · rw [hc] at h3; omega
    · rw [kids_some n1] at h3
      rw [hc] at n5
      exact ⟨lo, (cores s.nd f).2.2, rfl, n3, n4, h3 lo (by simp), h3 _ (by simp), n5⟩
  · rw [if_neg hl]
    have h4 : 2 ≤ f → o a < o (cores s.nd f).1 := fun h2 => by
      rcases hk h2 with h3 | ⟨h3, _⟩
      · exact h3
      · exact absurd h3 hl
    exact ⟨f, f, rfl, hf, hf, h4, h4, fun ρ => by simp⟩

/-- what a swap keeps -/
structure Kept (s s' : RS) (D D' : Nat → Fn) (L L' : List Nat) : Prop where
  n : s'.n = s.n
  l2v : s'.l2v = s.l2v
  v2l : s'.v2l = s.v2l
  mat : s'.mat = s.mat
  tsz : s'.tsz = s.tsz
  size : s.size ≤ s'.size
  sub : ∀ i ∈ L, i ∈ L'
  D : ∀ i, (i < 2 ∨ i ∈ L) → D' i = D i

theorem Kept.trans {s s1 s2 : RS} {D D1 D2 : Nat → Fn} {L L1 L2 : List Nat} (h : Kept s s1 D D1 L L1) (g : Kept s1 s2 D1 D2 L1 L2) :
    Kept s s2 D D2 L L2 :=
  ⟨g.n.trans h.n, g.l2v.trans h.l2v, g.v2l.trans h.v2l, g.mat.trans h.mat, g.tsz.trans h.tsz, Nat.le_trans h.size g.size,
    fun i hi => g.sub i (h.sub i hi), fun i hi => (g.D i (hi.imp id (h.sub i))).trans (h.D i hi)⟩

theorem rSwap_spec (hgr : ∀ s, s < P.grow s) : ∀ {T : List Nat} {D : Nat → Fn} {L : List Nat} {s : RS},
    SI Q o a b x T [] D L s → o b < o a → (∀ v, v < s.n → o v < o a → o v ≤ o b) → a < s.n → b < s.n →
    ∃ s' D' L', rSwap P Q a b T s = some s' ∧ SI Q o a b x [] [] D' L' s' ∧ Kept s s' D D' L L'
  | [], D, L, s, h, _, _, _, _ => ⟨s, D, L, rfl, h, ⟨rfl, rfl, rfl, rfl, rfl, Nat.le_refl _, fun _ h => h, fun _ _ => rfl⟩⟩
  | q :: T, D, L, s, h, hoab, hadj, ha, hb => by
    obtain ⟨qL, qa, qk⟩ := h.cr.tT q (by simp)
    obtain ⟨f0, n1, n2, n3, n4, n5⟩ := h.cr.node q qL
    have hkq := kids_some n1
    rw [hkq] at qk
    rw [qa] at n5
    obtain ⟨f00, f01, c1, c2, c3, c4, c5, c6⟩ := cof_spec h hb hoab n3 (qk f0 (by simp))
    obtain ⟨f10, f11, d1, d2, d3, d4, d5, d6⟩ := cof_spec h hb hoab n4 (qk _ (by simp))
    obtain ⟨g0, s1, D1, L1, m1, m2, m3, m4, m5, m6, m7⟩ := rMake_spec hgr h hoab ha hb c2 d2 c4 d4
    obtain ⟨g1, s2, D2, L2, k1, k2, k3, k4, k5, k6, k7⟩ := rMake_spec hgr m2 hoab (m3.n ▸ ha) (m3.n ▸ hb)
      (c3.imp id (m3.sub _)) (d3.imp id (m3.sub _)) (by rw [m3.core _ c3]; exact c5) (by rw [m3.core _ d3]; exact d5)
    have hn : s2.n = s.n := k3.n.trans m3.n
    have g := m3.trans k3
    have hr := replace_spec k2 (hn ▸ hb) hoab (by rw [hn]; exact hadj) (m5.imp id (k3.sub _)) k5 m6 k6
      (by rw [k3.core _ m5]; exact m7) k7 (fun ρ => by
        rw [g.D q (.inr qL), k3.D g0 m5, m4, k4, m3.D _ c3, m3.D _ d3, n5, c6, d6]
        cases ρ a <;> cases ρ b <;> rfl) (f0 := f0) (f1 := (cores s.nd q).2.2)
      (by rw [kids_congr (g.core q (.inr qL)), hkq])
    obtain ⟨s', D', L', r1, r2, r3⟩ := rSwap_spec hgr hr hoab
      (by show ∀ v, v < s2.n → _; rw [hn]; exact hadj) (by show a < s2.n; rw [hn]; exact ha)
      (by show b < s2.n; rw [hn]; exact hb)
    refine ⟨s', D', L', ?_, r2, Kept.trans (s1 := replace Q s2 b q f0 (cores s.nd q).2.2 g0 g1) (D1 := D2) (L1 := L2)
      ⟨g.n, g.l2v, g.v2l, g.mat, g.tsz, g.size, g.sub, g.D⟩ r3⟩
    unfold rSwap
    have n1' : (s.nd q).low = some f0 := n1
    rw [n1']
    show (cof s.nd b f0).bind _ = _
    rw [c1]
    show (cof s.nd b (s.nd q).high).bind _ = _
    rw [show (s.nd q).high = (cores s.nd q).2.2 from rfl, d1]
    show (rMake P Q s a f00 f10).bind _ = _
    rw [m1]
    show (rMake P Q s1 a f01 f11).bind _ = _
    rw [k1]
    exact r1

end Make

end Verif.Bdd
