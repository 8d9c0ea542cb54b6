import Verif.Bdd.Hist
import Verif.Spec.Count
/-
Model of the counting functions of /repo/bdd/operation.go. The `big.Int` objects are cells of `K.heap`; the functions return
the position of the cell, as the code returns pointers to objects that may also be referenced from the cache.
-/
namespace Verif.Bdd
open Verif

/-- a new `big.Int` -/
def newInt (k : K) (v : Nat) : Nat × K := (k.heap.length, { k with heap := k.heap ++ [v] })

/-- operation.go:189-210: `satCountRec` (identifier 2: kernel.go:27) -/
def satCountRec (P : Par) : Nat → K → Nat → Option (Nat × K)
  | 0, _, _ => none
  | f + 1, k, root =>
    if root < 2 then some (newInt k root)
    else
      let s := P.s1 root
      if (k.misc s).a = some root ∧ (k.misc s).c = 2 then some ((k.misc s).bd, k)
      else do
        let lo ← (k.nd root).low
        let hi := (k.nd root).high
        let (p1, k1) ← satCountRec P f k lo
        let v1 ← k1.heap[p1]?
        let s1 := 2 ^ ((k.nd lo).lvl - (k.nd root).lvl - 1) * v1
        let (p2, k2) ← satCountRec P f k1 hi
        let v2 ← k2.heap[p2]?
        let s2 := 2 ^ ((k.nd hi).lvl - (k.nd root).lvl - 1) * v2
        let (p, k3) := newInt k2 (s1 + s2)
        return (p, { k3 with misc := upd k3.misc s { k3.misc s with a := some root, c := 2, bd := p } })

/-- operation.go:181-187: `satCount`; the product is stored in the object that `satCountRec` returned -/
def satCount (P : Par) (k : K) (r : Nat) : Option (Nat × K) := do
  let (p, k1) ← satCountRec P (k.n + 1) k r
  let v ← k1.heap[p]?
  return (p, { k1 with heap := k1.heap.set p (v * 2 ^ (k.nd r).lvl) })

/-- operation.go:216-258: `pathCountRecOne` (`b = true`, identifier 4) and `pathCountRecZero` (`b = false`, identifier 8);
the sum is stored in the object of the low successor -/
def pathRec (P : Par) (b : Bool) : Nat → K → Nat → Option (Nat × K)
  | 0, _, _ => none
  | f + 1, k, r =>
    if r = 0 then some (newInt k (if b then 0 else 1))
    else if r = 1 then some (newInt k (if b then 1 else 0))
    else
      let s := P.s1 r
      let id := if b then 4 else 8
      if (k.misc s).a = some r ∧ (k.misc s).c = id then some ((k.misc s).bd, k)
      else do
        let lo ← (k.nd r).low
        let (p1, k1) ← pathRec P b f k lo
        let (p2, k2) ← pathRec P b f k1 (k.nd r).high
        let v1 ← k2.heap[p1]?
        let v2 ← k2.heap[p2]?
        let k3 := { k2 with heap := k2.heap.set p1 (v1 + v2) }
        return (p1, { k3 with misc := upd k3.misc s { k3.misc s with a := some r, c := id, bd := p1 } })

/-- operation.go:212-214, 236-238 -/
def pathCount (P : Par) (b : Bool) (k : K) (r : Nat) : Option (Nat × K) := pathRec P b (k.n + 1) k r

/-- the value of a returned object -/
def valueOf : Option (Nat × K) → Option Nat
  | none => none
  | some (p, k) => k.heap[p]?

/-! ### Number of models of a tree -/

/-- number of assignments of the levels `m, …, n - 1` that satisfy the tree -/
def T.cnt (n : Nat) : Nat → T → Nat
  | m, .leaf b => if b then 2 ^ (n - m) else 0
  | m, .node v l h => 2 ^ (v - m) * (T.cnt n (v + 1) l + T.cnt n (v + 1) h)

theorem T.cnt_top {n m d : Nat} {t : T} (ho : Ord n m t) (hm : m ≤ n) (hd : d ≤ m) :
    t.cnt n d = 2 ^ (t.top n - d) * t.cnt n (t.top n) := by
  cases t with
  | leaf b => cases b <;> simp [T.cnt, T.top]
  | node v l h => simp [T.cnt, T.top]

/-- the count of the tree is the number of satisfying assignments -/
theorem T.cnt_spec {n : Nat} : ∀ (d m : Nat) {t : T}, m + d = n → Ord n m t →
    count (List.range' m d) (fun ρ => t.eval ρ) = t.cnt n m
  | 0, m, t, hd, ho => by
    cases t with
    | leaf b => rw [List.range'_zero, count_nil]; cases b <;> simp [T.cnt, T.eval, ← hd]
    | node v l h => have := ho.1; have := ho.2.1; omega
  | d + 1, m, t, hd, ho => by
    rw [List.range'_succ, count_cons (by simp)]
    have hsv : ∀ (v : Nat → Bool) (b : Bool), setVal v m b = setv v m b := fun _ _ => rfl
    simp only [hsv]
    have hind : Ord n (m + 1) t → count (List.range' (m + 1) d) (fun v => t.eval (setv v m false)) +
        count (List.range' (m + 1) d) (fun v => t.eval (setv v m true)) = t.cnt n m := by
      intro h1
      rw [count_congr (p := fun v => t.eval (setv v m false)) (q := fun v => t.eval v) fun v => h1.setv_lt (by omega) v false,
        count_congr (p := fun v => t.eval (setv v m true)) (q := fun v => t.eval v) fun v => h1.setv_lt (by omega) v true, T.cnt_spec d (m + 1) (by omega) h1]
      have hle : m + 1 ≤ t.top n := by
        cases t with
        | leaf b => simp [T.top]; omega
        | node v l h => exact h1.1
      rw [T.cnt_top (d := m + 1) h1 (by omega) (by omega), T.cnt_top (d := m) h1 (by omega) (by omega),
        show t.top n - m = (t.top n - (m + 1)) + 1 by omega, Nat.pow_succ]
      generalize 2 ^ (t.top n - (m + 1)) = a
      generalize t.cnt n (t.top n) = b
      rw [show a * 2 * b = 2 * (a * b) by rw [Nat.mul_comm a 2, Nat.mul_assoc]]
      omega
    cases t with
    | leaf b => exact hind trivial
    | node v l h =>
      obtain ⟨o1, o2, o3, o4, o5⟩ := ho
      by_cases hv : v = m
      · subst hv
        rw [count_congr (q := fun w => l.eval w) fun w => eval_low o4 w,
          count_congr (q := fun w => h.eval w) fun w => eval_high o5 w, T.cnt_spec d (v + 1) (by omega) o4,
          T.cnt_spec d (v + 1) (by omega) o5]
        simp [T.cnt]
      · exact hind ⟨by omega, o2, o3, o4, o5⟩

/-- relabelling: the levels of the names -/
theorem count_names {α : Type} [DecidableEq α] {names : List α} (hnd : names.Nodup) (g : (α → Bool) → Bool) (t : T)
    (he : ∀ (ρ : Nat → Bool) (v : α → Bool), (∀ (j : Nat) x, names[j]? = some x → ρ j = v x) → t.eval ρ = g v) {n : Nat}
    (hn : names.length ≤ n) :
    count (List.range n) (fun ρ => t.eval ρ) = 2 ^ (n - names.length) * count names g := by
  have hrange : names.map (fun x => names.idxOf x) = List.range names.length := by
    refine List.ext_getElem (by simp) fun j h1 h2 => ?_
    simp [hnd.idxOf_getElem]
  have hdep : DependsOn (fun ρ => t.eval ρ) (List.range names.length) := by
    intro ρ ρ' hh
    have h1 : ∀ (j : Nat) x, names[j]? = some x → ρ j = (fun x => if x ∈ names then named names ρ x else false) x := by
      intro j x hj
      dsimp only
      rw [if_pos (List.mem_of_getElem? hj)]
      exact named_spec hnd ρ j x hj
    dsimp only
    rw [he ρ _ h1]
    refine (he ρ' _ fun j x hj => ?_).symm
    exact (hh j (List.mem_range.2 (List.getElem?_eq_some_iff.1 hj).1)).symm.trans (h1 j x hj)
  have hperm : (List.range n).Perm (List.range' names.length (n - names.length) ++ List.range names.length) := by
    rw [List.range_eq_range', List.range_eq_range']
    refine List.Perm.trans ?_ List.perm_append_comm
    have := List.range'_append (s := 0) (m := names.length) (n := n - names.length) (step := 1)
    rw [show 0 + 1 * names.length = names.length by omega,
      show names.length + (n - names.length) = n by omega] at this
    rw [this]
  rw [count_perm hperm List.nodup_range, count_dontCare _ (hperm.nodup_iff.1 List.nodup_range) hdep, List.length_range']
  congr 1
  rw [← hrange]
  unfold count
  rw [List.sublists'_map, List.countP_map]
  refine List.countP_congr fun S hS => ?_
  rw [List.mem_sublists'] at hS
  simp only [Function.comp]
  rw [he _ (asgOf S) fun j x hj => ?_]
  have hx : x ∈ names := List.mem_of_getElem? hj
  obtain ⟨h1, h2⟩ := List.getElem?_eq_some_iff.1 hj
  have hjx : names.idxOf x = j := by rw [← h2, hnd.idxOf_getElem]
  unfold asgOf
  rw [decide_eq_decide, List.mem_map]
  constructor
  · rintro ⟨y, hy, e⟩
    have hyn := hS.subset hy
    have : y = x := by
      have e1 := List.getElem_idxOf (List.idxOf_lt_length_of_mem hyn)
      rw [← e1, ← h2]
      congr 1
    exact this ▸ hy
  · exact fun h => ⟨x, h, hjx⟩

/-! ### Correctness of `satCountRec` -/

/-- the value that `satCountRec` computes for a tree -/
def T.c (n : Nat) (t : T) : Nat := t.cnt n (t.top n)

/-- cached model counts are right, and their objects are not used for the path counts -/
structure CntOk (k : K) : Prop where
  val : ∀ s r, (k.misc s).a = some r → (k.misc s).c = 2 → ∃ t, Rep k.nd r t ∧ k.heap[(k.misc s).bd]? = some (t.c k.n)
  path : ∀ s r, (k.misc s).a = some r → (k.misc s).c = 4 ∨ (k.misc s).c = 8 → (k.misc s).bd < k.heap.length
  sep : ∀ s s' r r', (k.misc s).a = some r → (k.misc s).c = 2 → (k.misc s').a = some r' →
    (k.misc s').c = 4 ∨ (k.misc s').c = 8 → (k.misc s).bd ≠ (k.misc s').bd

theorem CntOk.surv {k k' : K} (h : CntOk k) (hs : Surv k k') (hn : k'.n = k.n) (hh : k'.heap = k.heap) : CntOk k' := by
  have key : ∀ s r, (k'.misc s).a = some r → ((k'.misc s).c = 2 ∨ (k'.misc s).c = 4 ∨ (k'.misc s).c = 8) →
      k'.misc s = k.misc s ∧ ∀ t, Rep k.nd r t → Rep k'.nd r t := fun s r ha hc => hs s r ha (by omega)
  refine ⟨fun s r ha hc => ?_, fun s r ha hc => ?_, fun s s' r r' ha hc ha' hc' => ?_⟩
  · obtain ⟨e1, e2⟩ := key s r ha (.inl hc)
    rw [e1] at ha hc ⊢
    obtain ⟨t, h1, h2⟩ := h.val s r ha hc
    exact ⟨t, e2 t h1, by rw [hh, hn]; exact h2⟩
  · obtain ⟨e1, _⟩ := key s r ha (.inr hc)
    rw [e1] at ha hc ⊢
    rw [hh]; exact h.path s r ha hc
  · obtain ⟨e1, _⟩ := key s r ha (.inl hc)
    obtain ⟨e2, _⟩ := key s' r' ha' (.inr hc')
    rw [e1] at ha hc ⊢
    rw [e2] at ha' hc' ⊢
    exact h.sep s s' r r' ha hc ha' hc'

theorem get_append_of {H : List Nat} {q v : Nat} (L : List Nat) (h : H[q]? = some v) : (H ++ L)[q]? = some v := by
  rw [List.getElem?_append_left (List.getElem?_eq_some_iff.1 h).1]; exact h

theorem newInt_eq (k : K) (v : Nat) : newInt k v = (k.heap.length, { k with misc := k.misc, heap := k.heap ++ [v] }) := rfl

theorem CntOk.append {k : K} (h : CntOk k) (v : Nat) : CntOk { k with heap := k.heap ++ [v] } := by
  refine ⟨fun s r ha hc => ?_, fun s r ha hc => ?_, h.sep⟩
  · obtain ⟨t, h1, h2⟩ := h.val s r ha hc
    exact ⟨t, h1, get_append_of _ h2⟩
  · have := h.path s r ha hc
    show (k.misc s).bd < (k.heap ++ [v]).length
    rw [List.length_append]
    omega

theorem satCountRec_spec {P : Par} : ∀ {f : Nat} {k : K} {r m : Nat} {t : T}, Lv k → Rep k.nd r t → Ord k.n m t →
    k.n < f + m → m ≤ k.n → CntOk k →
    ∃ p M H, satCountRec P f k r = some (p, { k with misc := M, heap := k.heap ++ H }) ∧
      CntOk { k with misc := M, heap := k.heap ++ H } ∧ (k.heap ++ H)[p]? = some (t.c k.n) ∧
      (∀ s, M s = k.misc s ∨ ((M s).c = 2)) ∧
      (2 ≤ r → (M (P.s1 r)).a = some r ∧ (M (P.s1 r)).c = 2 ∧ (M (P.s1 r)).bd = p) ∧
      (r < 2 → k.heap.length ≤ p)
  | 0, k, r, m, t, _, _, _, hf, hm, _ => by omega
  | f + 1, k, r, m, t, hl, hr, ho, hf, hm, hc => by
    unfold satCountRec
    by_cases h2 : r < 2
    · rw [if_pos h2]
      refine ⟨k.heap.length, k.misc, [r], rfl, hc.append r, ?_, fun s => .inl rfl, fun h => by omega, fun _ => Nat.le_refl _⟩
      rw [hr.lt2 h2]
      have : r = 0 ∨ r = 1 := by omega
      rcases this with rfl | rfl <;> simp [T.c, T.cnt, T.top]
    · rw [if_neg h2]
      dsimp only
      by_cases hh : (k.misc (P.s1 r)).a = some r ∧ (k.misc (P.s1 r)).c = 2
      · rw [if_pos hh]
        obtain ⟨t', h1, h3⟩ := hc.val _ r hh.1 hh.2
        obtain rfl := hr.fun h1
        exact ⟨_, k.misc, [], by rw [List.append_nil], by rw [List.append_nil]; exact hc, by rw [List.append_nil]; exact h3,
          fun s => .inl rfl, fun _ => ⟨hh.1, hh.2, rfl⟩, fun h => absurd h h2⟩
      · rw [if_neg hh]
        obtain ⟨lo, l, h, e1, e2, e3, rfl⟩ := hr.ge2 (by omega)
        obtain ⟨o1, o2, o3, o4, o5⟩ := ho
        obtain ⟨p1, M1, H1, a1, a2, a3, a4, a5, a6⟩ := satCountRec_spec (P := P) (f := f) (m := (k.nd r).lvl + 1) hl e2 o4 (by omega) (by omega) hc
        obtain ⟨p2, M2, H2, b1, b2, b3, b4, b5, b6⟩ := satCountRec_spec (P := P) (f := f) (k := { k with misc := M1, heap := k.heap ++ H1 })
          (m := (k.nd r).lvl + 1) (t := h) ⟨hl.1, hl.2⟩ e3 o5 (by show k.n < _; omega) (by show _ ≤ k.n; omega) a2
        have b3 : (k.heap ++ H1 ++ H2)[p2]? = some (h.c k.n) := b3
        simp only [Option.bind_eq_bind, e1, Option.bind_some, a1, a3, b1, b3]
        have l1 : (k.nd lo).lvl = l.top k.n := e2.lvl hl
        have l2 : (k.nd (k.nd r).high).lvl = h.top k.n := e3.lvl hl
        have hval : 2 ^ ((k.nd lo).lvl - (k.nd r).lvl - 1) * l.c k.n + 2 ^ ((k.nd (k.nd r).high).lvl - (k.nd r).lvl - 1) * h.c k.n =
            T.c k.n (.node (k.nd r).lvl l h) := by
          rw [l1, l2]
          unfold T.c
          conv => rhs; simp only [T.cnt, T.top, Nat.sub_self, Nat.pow_zero, Nat.one_mul]
          rw [T.cnt_top (d := (k.nd r).lvl + 1) o4 (by omega) (Nat.le_refl _),
            T.cnt_top (d := (k.nd r).lvl + 1) o5 (by omega) (Nat.le_refl _)]
          rfl
        rw [hval]
        generalize hV : T.c k.n (.node (k.nd r).lvl l h) = V at *
        refine ⟨(k.heap ++ H1 ++ H2).length, upd M2 (P.s1 r) { M2 (P.s1 r) with a := some r, c := 2, bd := (k.heap ++ H1 ++ H2).length },
          H1 ++ H2 ++ [V], ?_, ?_, ?_, ?_, ?_, fun h => absurd h h2⟩
        · simp only [newInt, ← List.append_assoc]
          rfl
        · rw [show k.heap ++ (H1 ++ H2 ++ [V]) = k.heap ++ H1 ++ H2 ++ [V] by simp only [List.append_assoc]]
          have b2' := b2.append V
          refine ⟨fun s r' ha hcc => ?_, fun s r' ha hcc => ?_, fun s s' r' r'' ha hcc ha' hcc' => ?_⟩
          · by_cases hs : s = P.s1 r
            · subst hs
              simp only [upd_self] at ha hcc ⊢
              injection ha with ha
              subst ha
              refine ⟨_, hr, ?_⟩
              rw [hV]
              simp
            · simp only [upd_ne _ _ hs] at ha hcc ⊢
              exact b2'.val s r' ha hcc
          · by_cases hs : s = P.s1 r
            · subst hs
              simp only [upd_self] at ha hcc ⊢
              omega
            · simp only [upd_ne _ _ hs] at ha hcc ⊢
              exact b2'.path s r' ha hcc
          · by_cases hs' : s' = P.s1 r
            · subst hs'
              simp only [upd_self] at hcc'
              omega
            · simp only [upd_ne _ _ hs'] at ha' hcc' ⊢
              by_cases hs : s = P.s1 r
              · subst hs
                simp only [upd_self] at ha hcc ⊢
                have := b2.path s' r'' ha' hcc'
                intro he
                rw [← he] at this
                exact absurd this (Nat.lt_irrefl _)
              · simp only [upd_ne _ _ hs] at ha hcc ⊢
                exact b2.sep s s' r' r'' ha hcc ha' hcc'
        · rw [show k.heap ++ (H1 ++ H2 ++ [V]) = k.heap ++ H1 ++ H2 ++ [V] by simp only [List.append_assoc]]
          simp
        · intro s
          by_cases hs : s = P.s1 r
          · subst hs; right; simp
          · rw [upd_ne _ _ hs]
            rcases b4 s with h | h
            · rcases a4 s with h' | h'
              · exact .inl (h.trans h')
              · exact .inr (by rw [h]; exact h')
            · exact .inr h
        · intro _
          simp

/-- the counting functions keep the rest of the kernel -/
theorem Wf.setCnt {P : Par} {k : K} (w : Wf P k) {M : Nat → Entry} {H : List Nat} (hM : ∀ s, M s = k.misc s ∨ (M s).c < 9) :
    Wf P { k with misc := M, heap := H } :=
  ⟨⟨w.inv.sz, w.inv.live, w.inv.uniq, w.inv.bmem, w.inv.blive, w.inv.fmem, w.inv.fnd, w.inv.rlive, w.inv.slive, w.inv.ap,
    w.inv.qu, fun s => by
      rcases hM s with h | h
      · show MiOk k.nd (M s)
        rw [h]; exact w.inv.mi s
      · intro r _ h9
        have h9 : 9 ≤ (M s).c := h9
        omega⟩, ⟨w.lv.1, w.lv.2⟩, ⟨w.qi.nonneg, w.qi.le⟩, w.vlen, w.vars, w.st, w.seg⟩

theorem satCount_spec {P : Par} {k : K} (w : Wf P k) {r : Nat} {t : T} (hr : Rep k.nd r t) (hc : CntOk k) :
    ∃ p M H, satCount P k r = some (p, { k with misc := M, heap := H }) ∧ H[p]? = some (t.cnt k.n 0) ∧
      (∀ s, M s = k.misc s ∨ (M s).c < 9) ∧
      (r < 2 ∨ (k.nd r).lvl = 0 → CntOk { k with misc := M, heap := H }) := by
  have ho := w.inv.ord hr
  obtain ⟨p, M, H, a1, a2, a3, a4, a5, a6⟩ := satCountRec_spec (P := P) (f := k.n + 1) w.lv hr ho (by omega) (by omega) hc
  unfold satCount
  simp only [Option.bind_eq_bind, a1, Option.bind_some, a3]
  have hp : p < (k.heap ++ H).length := (List.getElem?_eq_some_iff.1 a3).1
  refine ⟨p, M, (k.heap ++ H).set p (t.c k.n * 2 ^ (k.nd r).lvl), rfl, ?_, fun s => (a4 s).imp id fun h => by omega, fun hcase => ?_⟩
  · rw [List.getElem?_set, if_pos rfl, if_pos hp, T.cnt_top (d := 0) ho (by omega) (by omega), hr.lvl w.lv, Nat.sub_zero]
    unfold T.c
    rw [Nat.mul_comm]
  · rcases hcase with h2 | h0
    · have hM : M = k.misc ∧ H = [r] ∧ p = k.heap.length := by
        unfold satCountRec at a1
        rw [if_pos h2] at a1
        injection a1 with a1
        obtain ⟨e1, e2⟩ := Prod.mk.injEq _ _ _ _ ▸ a1
        have e3 : k.misc = M := congrArg K.misc e2
        have e4 : k.heap ++ [r] = k.heap ++ H := congrArg K.heap e2
        exact ⟨e3.symm, (List.append_cancel_left e4).symm, e1.symm⟩
      obtain ⟨rfl, rfl, rfl⟩ := hM
      rw [List.set_append_right _ _ (Nat.le_refl _)]
      simp only [Nat.sub_self, List.set_cons_zero]
      exact hc.append _
    · rw [h0, Nat.pow_zero, Nat.mul_one]
      have : (k.heap ++ H).set p (t.c k.n) = k.heap ++ H := by
        refine List.ext_getElem? fun i => ?_
        rw [List.getElem?_set]
        by_cases h : p = i
        · subst h; rw [if_pos rfl, if_pos hp, a3]
        · rw [if_neg h]
      rw [this]
      exact a2

theorem pathRec_spec {P : Par} {b : Bool} : ∀ {f : Nat} {k : K} {r m : Nat} {t : T}, Rep k.nd r t → Ord k.n m t →
    k.n < f + m → m ≤ k.n → CntOk k →
    ∃ p M H, pathRec P b f k r = some (p, { k with misc := M, heap := H }) ∧
      CntOk { k with misc := M, heap := H } ∧ k.heap.length ≤ H.length ∧ p < H.length ∧
      (∀ s r, (M s).a = some r → (M s).c = 2 → (M s).bd ≠ p) ∧ ∀ s, M s = k.misc s ∨ (M s).c = 4 ∨ (M s).c = 8
  | 0, k, r, m, t, _, _, hf, hm, _ => by omega
  | f + 1, k, r, m, t, hr, ho, hf, hm, hc => by
    have fresh : ∀ v, ∃ p M H, some (newInt k v) = some (p, { k with misc := M, heap := H }) ∧
        CntOk { k with misc := M, heap := H } ∧ k.heap.length ≤ H.length ∧ p < H.length ∧
        (∀ s r, (M s).a = some r → (M s).c = 2 → (M s).bd ≠ p) ∧ ∀ s, M s = k.misc s ∨ (M s).c = 4 ∨ (M s).c = 8 := by
      intro v
      refine ⟨k.heap.length, k.misc, k.heap ++ [v], rfl, hc.append v, by simp, by simp, fun s r ha hcc he => ?_, fun s => .inl rfl⟩
      obtain ⟨t, _, h⟩ := hc.val s r ha hcc
      have := (List.getElem?_eq_some_iff.1 h).1
      omega
    unfold pathRec
    by_cases h0 : r = 0
    · rw [if_pos h0]; exact fresh _
    · rw [if_neg h0]
      by_cases h1 : r = 1
      · rw [if_pos h1]; exact fresh _
      · rw [if_neg h1]
        dsimp only
        have hid : (if b = true then 4 else 8) = 4 ∨ (if b = true then 4 else 8) = 8 := by cases b <;> simp
        generalize (if b = true then 4 else 8) = id at hid ⊢
        by_cases hh : (k.misc (P.s1 r)).a = some r ∧ (k.misc (P.s1 r)).c = id
        · rw [if_pos hh]
          refine ⟨_, k.misc, k.heap, rfl, hc, Nat.le_refl _, hc.path _ r hh.1 (by rw [hh.2]; exact hid),
            fun s r' ha hcc => hc.sep _ _ r' r ha hcc hh.1 (by rw [hh.2]; exact hid), fun s => .inl rfl⟩
        · rw [if_neg hh]
          obtain ⟨lo, l, h, e1, e2, e3, rfl⟩ := hr.ge2 (by omega)
          obtain ⟨o1, o2, o3, o4, o5⟩ := ho
          obtain ⟨p1, M1, H1, a1, a2, a3, a4, a5, a6⟩ := pathRec_spec (P := P) (b := b) (f := f) (m := (k.nd r).lvl + 1) e2 o4 (by omega) (by omega) hc
          obtain ⟨p2, M2, H2, b1, b2, b3, b4, b5, b6⟩ := pathRec_spec (P := P) (b := b) (f := f) (k := { k with misc := M1, heap := H1 })
            (m := (k.nd r).lvl + 1) (t := h) e3 o5 (by show k.n < _; omega) (by show _ ≤ k.n; omega) a2
          have b3 : H1.length ≤ H2.length := b3
          have hp1 : p1 < H2.length := by omega
          have hsep : ∀ s r, (M2 s).a = some r → (M2 s).c = 2 → (M2 s).bd ≠ p1 := fun s r' ha hcc => by
            rcases b6 s with h | h
            · have h : M2 s = M1 s := h
              rw [h] at ha hcc ⊢
              exact a5 s r' ha hcc
            · omega
          simp only [Option.bind_eq_bind, e1, Option.bind_some, a1, b1, List.getElem?_eq_getElem hp1, List.getElem?_eq_getElem b4]
          refine ⟨p1, upd M2 (P.s1 r) { M2 (P.s1 r) with a := some r, c := id, bd := p1 }, H2.set p1 (H2[p1] + H2[p2]), rfl, ?_, ?_, ?_,
            ?_, ?_⟩
          · refine ⟨fun s r' ha hcc => ?_, fun s r' ha hcc => ?_, fun s s' r' r'' ha hcc ha' hcc' => ?_⟩
            · by_cases hs : s = P.s1 r
              · subst hs
                simp only [upd_self] at hcc
                omega
              · simp only [upd_ne _ _ hs] at ha hcc ⊢
                obtain ⟨t, c1, c2⟩ := b2.val s r' ha hcc
                refine ⟨t, c1, ?_⟩
                rw [List.getElem?_set, if_neg (hsep s r' ha hcc).symm]
                exact c2
            · show _ < (H2.set p1 _).length
              rw [List.length_set]
              by_cases hs : s = P.s1 r
              · subst hs
                simp only [upd_self]
                exact hp1
              · simp only [upd_ne _ _ hs] at ha hcc ⊢
                exact b2.path s r' ha hcc
            · by_cases hs : s = P.s1 r
              · subst hs
                simp only [upd_self] at hcc
                omega
              · simp only [upd_ne _ _ hs] at ha hcc ⊢
                by_cases hs' : s' = P.s1 r
                · subst hs'
                  simp only [upd_self]
                  exact hsep s r' ha hcc
                · simp only [upd_ne _ _ hs'] at ha' hcc' ⊢
                  exact b2.sep s s' r' r'' ha hcc ha' hcc'
          · rw [List.length_set]; omega
          · rw [List.length_set]; exact hp1
          · intro s r' ha hcc
            by_cases hs : s = P.s1 r
            · subst hs
              simp only [upd_self] at hcc
              omega
            · simp only [upd_ne _ _ hs] at ha hcc ⊢
              exact hsep s r' ha hcc
          · intro s
            by_cases hs : s = P.s1 r
            · subst hs; right; simp only [upd_self]; exact hid
            · rw [upd_ne _ _ hs]
              rcases b6 s with h | h
              · have h : M2 s = M1 s := h
                rcases a6 s with h' | h'
                · exact .inl (h.trans h')
                · exact .inr (by rw [h]; exact h')
              · exact .inr h

/-! ### The counting functions do not panic -/

/-- cached objects exist -/
def BdOk (k : K) : Prop := ∀ s r, (k.misc s).a = some r → (k.misc s).c < 9 → (k.misc s).bd < k.heap.length

theorem BdOk.surv {k k' : K} (h : BdOk k) (hs : Surv k k') (hh : k'.heap = k.heap) : BdOk k' := fun s r ha hc => by
  obtain ⟨e1, _⟩ := hs s r ha hc
  rw [e1] at ha hc ⊢
  rw [hh]; exact h s r ha hc

/-- result of a counting function -/
def Cnt (k : K) (r : Option (Nat × K)) : Prop :=
  ∃ p M H, r = some (p, { k with misc := M, heap := H }) ∧ BdOk { k with misc := M, heap := H } ∧ p < H.length ∧
    k.heap.length ≤ H.length ∧ ∀ s, M s = k.misc s ∨ (M s).c < 9

theorem BdOk.newInt {k : K} (h : BdOk k) (v : Nat) : Cnt k (some (newInt k v)) :=
  ⟨_, k.misc, k.heap ++ [v], rfl, fun s r ha hc => by
    have := h s r ha hc
    show (k.misc s).bd < (k.heap ++ [v]).length
    rw [List.length_append]
    omega, by simp, by simp, fun _ => .inl rfl⟩

theorem BdOk.upd {k : K} {M : Nat → Entry} {H H' : List Nat} (h : BdOk { k with misc := M, heap := H }) (hl : H.length ≤ H'.length)
    {s c p : Nat} {a : Option Nat} (hp : p < H'.length) :
    BdOk { k with misc := upd M s { M s with a := a, c := c, bd := p }, heap := H' } := fun s' r ha hc => by
  show (Bdd.upd M s _ s').bd < H'.length
  by_cases hs : s' = s
  · subst hs; simp only [upd_self]; exact hp
  · simp only [upd_ne _ _ hs] at ha hc ⊢
    exact Nat.lt_of_lt_of_le (h s' r ha hc) hl

theorem satCountRec_total {P : Par} : ∀ {f : Nat} {k : K} {r m : Nat} {t : T}, Rep k.nd r t → Ord k.n m t →
    k.n < f + m → m ≤ k.n → BdOk k → Cnt k (satCountRec P f k r)
  | 0, k, r, m, t, _, _, hf, hm, _ => by omega
  | f + 1, k, r, m, t, hr, ho, hf, hm, hb => by
    unfold satCountRec
    by_cases h2 : r < 2
    · rw [if_pos h2]; exact hb.newInt r
    · rw [if_neg h2]
      dsimp only
      by_cases hh : (k.misc (P.s1 r)).a = some r ∧ (k.misc (P.s1 r)).c = 2
      · rw [if_pos hh]
        exact ⟨_, k.misc, k.heap, rfl, hb, hb _ r hh.1 (by rw [hh.2]; decide), Nat.le_refl _, fun _ => .inl rfl⟩
      · rw [if_neg hh]
        obtain ⟨lo, l, h, e1, e2, e3, rfl⟩ := hr.ge2 (by omega)
        obtain ⟨o1, o2, o3, o4, o5⟩ := ho
        obtain ⟨p1, M1, H1, a1, a2, a3, a4, a5⟩ := satCountRec_total (P := P) (f := f) (m := (k.nd r).lvl + 1) e2 o4 (by omega) (by omega) hb
        obtain ⟨p2, M2, H2, b1, b2, b3, b4, b5⟩ := satCountRec_total (P := P) (f := f) (k := { k with misc := M1, heap := H1 })
          (m := (k.nd r).lvl + 1) (t := h) e3 o5 (by show k.n < _; omega) (by show _ ≤ k.n; omega) a2
        have b4 : H1.length ≤ H2.length := b4
        simp only [Option.bind_eq_bind, e1, Option.bind_some, a1, b1, List.getElem?_eq_getElem a3, List.getElem?_eq_getElem b3, Bdd.newInt]
        refine ⟨_, _, _, rfl, BdOk.upd (k := k) b2 (by simp) (by simp), by simp, by simp; omega, fun s => ?_⟩
        by_cases hs : s = P.s1 r
        · subst hs; right; simp
        · rw [upd_ne _ _ hs]
          rcases b5 s with h | h
          · rcases a5 s with h' | h'
            · exact .inl (Eq.trans h h')
            · exact .inr (by rw [show _ = M1 s from h]; exact h')
          · exact .inr h

theorem pathRec_total {P : Par} {b : Bool} : ∀ {f : Nat} {k : K} {r m : Nat} {t : T}, Rep k.nd r t → Ord k.n m t →
    k.n < f + m → m ≤ k.n → BdOk k → Cnt k (pathRec P b f k r)
  | 0, k, r, m, t, _, _, hf, hm, _ => by omega
  | f + 1, k, r, m, t, hr, ho, hf, hm, hb => by
    unfold pathRec
    by_cases h0 : r = 0
    · rw [if_pos h0]; exact hb.newInt _
    · rw [if_neg h0]
      by_cases h1 : r = 1
      · rw [if_pos h1]; exact hb.newInt _
      · rw [if_neg h1]
        dsimp only
        have hid : (if b = true then 4 else 8) < 9 := by cases b <;> simp
        generalize (if b = true then 4 else 8) = id at hid ⊢
        by_cases hh : (k.misc (P.s1 r)).a = some r ∧ (k.misc (P.s1 r)).c = id
        · rw [if_pos hh]
          exact ⟨_, k.misc, k.heap, rfl, hb, hb _ r hh.1 (by rw [hh.2]; exact hid), Nat.le_refl _, fun _ => .inl rfl⟩
        · rw [if_neg hh]
          obtain ⟨lo, l, h, e1, e2, e3, rfl⟩ := hr.ge2 (by omega)
          obtain ⟨o1, o2, o3, o4, o5⟩ := ho
          obtain ⟨p1, M1, H1, a1, a2, a3, a4, a5⟩ := pathRec_total (P := P) (b := b) (f := f) (m := (k.nd r).lvl + 1) e2 o4 (by omega) (by omega) hb
          obtain ⟨p2, M2, H2, b1, b2, b3, b4, b5⟩ := pathRec_total (P := P) (b := b) (f := f) (k := { k with misc := M1, heap := H1 })
            (m := (k.nd r).lvl + 1) (t := h) e3 o5 (by show k.n < _; omega) (by show _ ≤ k.n; omega) a2
          have b4 : H1.length ≤ H2.length := b4
          have hp1 : p1 < H2.length := by omega
          simp only [Option.bind_eq_bind, e1, Option.bind_some, a1, b1, List.getElem?_eq_getElem hp1, List.getElem?_eq_getElem b3]
          refine ⟨_, _, _, rfl, BdOk.upd (k := k) b2 (by simp) (by simpa using hp1), by simpa using hp1, by simp; omega, fun s => ?_⟩
          by_cases hs : s = P.s1 r
          · subst hs; right; simp only [upd_self]; exact hid
          · rw [upd_ne _ _ hs]
            rcases b5 s with h | h
            · rcases a5 s with h' | h'
              · exact .inl (Eq.trans h h')
              · exact .inr (by rw [show _ = M1 s from h]; exact h')
            · exact .inr h

theorem satCount_total {P : Par} {k : K} (w : Wf P k) {r : Nat} {t : T} (hr : Rep k.nd r t) (hb : BdOk k) :
    Cnt k (satCount P k r) := by
  obtain ⟨p, M, H, a1, a2, a3, a4, a5⟩ := satCountRec_total (P := P) (f := k.n + 1) hr (w.inv.ord hr) (by omega) (by omega) hb
  unfold satCount
  simp only [Option.bind_eq_bind, a1, Option.bind_some, List.getElem?_eq_getElem a3]
  refine ⟨p, M, _, rfl, fun s r' ha hc => ?_, by simpa using a3, by simpa using a4, a5⟩
  have := a2 s r' ha hc
  show _ < (H.set _ _).length
  rw [List.length_set]
  exact this

end Verif.Bdd
